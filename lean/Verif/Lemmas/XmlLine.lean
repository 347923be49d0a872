import Verif.Lemmas.XmlNumbers
import Verif.Importer.Import
import Verif.Props.Importer
import Verif.Spec.Import
import Verif.Spec.Print
/-!
The updates that the importer collects for a voice without repeats: what they play, and how they grow.
-/
namespace Alda
namespace Importer
open Spec

/-- A duration of so many beats. -/
structure Lasts (d : Dur) (q : Rat) : Prop where
  exact : d.toBeats = .ok q
  pos : 0 < q
  valid : d.valid = true

theorem Lasts.beats {d : Dur} {q : Rat} (h : Lasts d q) : beatsOf d = q := by unfold beatsOf; rw [h.1]

theorem toBeatsFrom_append (a b : List DurComp) : ∀ (acc q : Rat), Dur.toBeatsFrom acc a = .ok q → Dur.toBeatsFrom acc (a ++ b) = Dur.toBeatsFrom q b := by
  induction a with
  | nil => intro acc q h; simp only [Dur.toBeatsFrom, BeatsResult.ok.injEq] at h; subst h; rfl
  | cons c a ih =>
    intro acc q h
    simp only [Dur.toBeatsFrom, List.cons_append] at h ⊢
    cases hc : c.toBeats with
    | ok x => rw [hc] at h; exact ih _ _ h
    | panic => rw [hc] at h; simp at h
    | nonFinite => rw [hc] at h; simp at h

theorem validList_append (a b : List DurComp) : Dur.validList (a ++ b) = (Dur.validList a && Dur.validList b) := by
  induction a with
  | nil => simp [Dur.validList]
  | cons c a ih => simp only [List.cons_append, Dur.validList, ih, Bool.and_assoc]

theorem Lasts.bar {d : Dur} {q : Rat} (h : Lasts d q) : Lasts (d ++ [.barline]) q := by
  refine ⟨?_, h.2, by unfold Dur.valid; rw [validList_append]; simp [Dur.validList, DurComp.valid]; exact h.valid⟩
  have := toBeatsFrom_append d [.barline] 0 q h.1
  unfold Dur.toBeats
  rw [this]
  simp [Dur.toBeatsFrom, DurComp.toBeats, Rat.add_zero]

theorem Lasts.notOnlyBars {d : Dur} {q : Rat} (h : Lasts d q) : NotOnlyBars d := by
  refine .inr (Classical.byContradiction fun hn => ?_)
  have hall : ∀ x ∈ d, x = DurComp.barline := fun x hx => Classical.byContradiction fun h => hn ⟨x, hx, h⟩
  have : ∀ (d : List DurComp) (acc : Rat), (∀ x ∈ d, x = DurComp.barline) → Dur.toBeatsFrom acc d = .ok acc := by
    intro d
    induction d with
    | nil => intro acc _; rfl
    | cons c d ih =>
      intro acc hd
      rw [hd c (List.mem_cons_self ..)]
      simp only [Dur.toBeatsFrom, DurComp.toBeats, Rat.add_zero]
      exact ih acc (fun x hx => hd x (List.mem_cons_of_mem _ hx))
  have h1 := h.1
  unfold Dur.toBeats at h1
  rw [this d 0 hall, BeatsResult.ok.injEq] at h1
  have := h.2
  grind

/-- A member of an imported chord: a note of a given length, or a change of the octave. -/
inductive FlatMember (q : Rat) : Upd → Prop where
  | note (l : Letter) (a : Option (List Accidental)) (d : Dur) (sl : Bool) : Lasts d q → FlatMember q (.leaf (.note (.letter l a) d sl))
  | octave (n : Int) : FlatMember q (.leaf (.attr (.octave n)))
  | up : FlatMember q (.leaf (.attr .octaveUp))
  | down : FlatMember q (.leaf (.attr .octaveDown))

/-- What the importer collects for a voice without repeats. -/
inductive Flat : Upd → Prop where
  | note (l : Letter) (a : Option (List Accidental)) (d : Dur) (sl : Bool) (q : Rat) : Lasts d q → Flat (.leaf (.note (.letter l a) d sl))
  | rest (d : Dur) (q : Rat) : Lasts d q → Flat (.leaf (.rest d))
  | octave (n : Int) : Flat (.leaf (.attr (.octave n)))
  | up : Flat (.leaf (.attr .octaveUp))
  | down : Flat (.leaf (.attr .octaveDown))
  | dynamic (m : String) : Flat (.leaf (.attr (.dynamic m)))
  | bar : Flat .barline
  | chord (q : Rat) (l : Letter) (a : Option (List Accidental)) (d : Dur) (sl : Bool) (es : List Upd) : Lasts d q → (∀ e ∈ es, FlatMember q e) →
      Flat (.chord (.leaf (.note (.letter l a) d sl) :: es))

/-! ### What can be written as text -/

/-- Note lengths and barlines, the first one a length. -/
def NeatDur (d : Dur) : Prop := (∀ c ∈ d, c = .barline ∨ ∃ (q : Rat) (k : Nat), c = .length q k ∧ 0 ≤ q ∧ Counting k) ∧ d.head? ≠ some .barline

/-- A note that can be written, apart from the numbers. -/
def NeatNote (a : Option (List Accidental)) (d : Dur) (sl : Bool) : Prop := a ≠ some [] ∧ NeatDur d ∧ (sl = true → d.getLast? ≠ some .barline)

/-- A member of a chord other than the last. -/
inductive Inner : Upd → Prop where
  | note (l : Letter) (a : Option (List Accidental)) (d : Dur) (sl : Bool) : NeatNote a d sl → .barline ∉ d → Inner (.leaf (.note (.letter l a) d sl))
  | octave (n : Int) : Counting n → Inner (.leaf (.attr (.octave n)))
  | up : Inner (.leaf (.attr .octaveUp))
  | down : Inner (.leaf (.attr .octaveDown))

/-- The members of a chord after the first. With the flag, a barline can be the last one. -/
inductive NeatTail (b : Bool) : List Upd → Prop where
  | last (l : Letter) (a : Option (List Accidental)) (d : Dur) (sl : Bool) : NeatNote a d sl → NeatTail b [.leaf (.note (.letter l a) d sl)]
  | bar (l : Letter) (a : Option (List Accidental)) (d : Dur) (sl : Bool) : b = true → NeatNote a d sl → NeatTail b [.leaf (.note (.letter l a) d sl), .barline]
  | cons (e : Upd) (es : List Upd) : Inner e → NeatTail b es → NeatTail b (e :: es)

/-- An event of a line that can be written. -/
inductive Neat (b : Bool) : Upd → Prop where
  | note (l : Letter) (a : Option (List Accidental)) (d : Dur) (sl : Bool) : NeatNote a d sl → Neat b (.leaf (.note (.letter l a) d sl))
  | rest (d : Dur) : NeatDur d → Neat b (.leaf (.rest d))
  | octave (n : Int) : Counting n → Neat b (.leaf (.attr (.octave n)))
  | up : Neat b (.leaf (.attr .octaveUp))
  | down : Neat b (.leaf (.attr .octaveDown))
  | dynamic (m : String) : m ∈ markings → Neat b (.leaf (.attr (.dynamic m)))
  | bar : Neat b .barline
  | chord (l : Letter) (a : Option (List Accidental)) (d : Dur) (sl : Bool) (es : List Upd) : Inner (.leaf (.note (.letter l a) d sl)) → NeatTail b es →
      Neat b (.chord (.leaf (.note (.letter l a) d sl) :: es))

theorem NeatDur.bar {d : Dur} {q : Rat} (h : NeatDur d) (hd : Lasts d q) : NeatDur (d ++ [.barline]) := by
  refine ⟨fun c hc => ?_, ?_⟩
  · rcases List.mem_append.1 hc with hc | hc
    · exact h.1 c hc
    · exact .inl (List.mem_singleton.1 hc)
  · cases d with
    | nil =>
      have h1 := hd.1
      have h2 := hd.2
      simp only [Dur.toBeats, Dur.toBeatsFrom, BeatsResult.ok.injEq] at h1
      rw [← h1] at h2
      exact absurd h2 (by decide)
    | cons c d => exact h.2

/-- Lists of these. -/
def FlatL (es : List Upd) : Prop := ∀ e ∈ es, Flat e ∧ Neat false e

theorem FlatL.append {es fs : List Upd} (h1 : FlatL es) (h2 : FlatL fs) : FlatL (es ++ fs) := by
  intro e he
  rcases List.mem_append.1 he with h | h
  · exact h1 e h
  · exact h2 e h

theorem FlatL.left {es fs : List Upd} (h : FlatL (es ++ fs)) : FlatL es := fun e he => h e (List.mem_append_left _ he)

theorem FlatL.one {e : Upd} (h : Flat e) (h' : Neat false e) : FlatL [e] := by
  intro x hx; simp only [List.mem_singleton] at hx; subst hx; exact ⟨h, h'⟩

theorem FlatL.imported : ∀ (es : List Upd), FlatL es → ImportedL es ∧ LetteredL es := by
  intro es
  induction es with
  | nil => intro _; simp [ImportedL, LetteredL]
  | cons e es ih =>
    intro h
    have hr := ih (fun x hx => h x (List.mem_cons_of_mem _ hx))
    simp only [ImportedL, LetteredL]
    refine ⟨⟨?_, hr.1⟩, ?_, hr.2⟩
    · cases (h e (List.mem_cons_self ..)).1 with
      | note l a d sl q hq => simp only [Imported]; exact hq.notOnlyBars
      | rest d q hq => simp only [Imported]; exact hq.notOnlyBars
      | octave n => simp [Imported, PartUpd.kind]
      | up => simp [Imported, PartUpd.kind]
      | down => simp [Imported, PartUpd.kind]
      | dynamic m => simp [Imported, PartUpd.kind]
      | bar => simp [Imported]
      | chord q l a d sl es hq hes =>
        simp only [Imported]
        intro x hx
        rcases List.mem_cons.1 hx with rfl | hx
        · simp only [Member]; exact hq.notOnlyBars
        · cases hes x hx with
          | note l a d sl hq => simp only [Member]; exact hq.notOnlyBars
          | octave n => simp [Member, PartUpd.kind]
          | up => simp [Member, PartUpd.kind]
          | down => simp [Member, PartUpd.kind]
    · cases (h e (List.mem_cons_self ..)).1 with
      | chord q l a d sl es hq hes =>
        simp only [Lettered, LetteredL, true_and]
        clear h ih hr hq
        induction es with
        | nil => simp [LetteredL]
        | cons x es ih =>
          simp only [LetteredL]
          refine ⟨?_, ih (fun y hy => hes y (List.mem_cons_of_mem _ hy))⟩
          cases hes x (List.mem_cons_self ..) <;> simp [Lettered]
      | _ => simp [Lettered]

/-! ### What a line plays -/

/-- Where a line has come to, in beats; the octave; and its notes: start, length, pitch. -/
structure Pen where
  pos : Rat
  octave : Int
  tones : List (Rat × Rat × Int)

/-- A note or an octave change, in the key `K`. -/
def Pen.member (K : KeySig) (p : Pen) : Upd → Pen
  | .leaf (.note (.letter l a) d _) => { p with tones := p.tones ++ [(p.pos, beatsOf d, pitchOf l (a.getD (onLetter K l)) p.octave 0)] }
  | .leaf (.attr (.octave n)) => { p with octave := n }
  | .leaf (.attr .octaveUp) => { p with octave := p.octave + 1 }
  | .leaf (.attr .octaveDown) => { p with octave := p.octave - 1 }
  | _ => p

/-- An event of a line. -/
def Pen.step (K : KeySig) (p : Pen) : Upd → Pen
  | .chord es => { es.foldl (Pen.member K) p with pos := p.pos + beatsUpd (.chord es) }
  | e => { p.member K e with pos := p.pos + beatsUpd e }

/-- A line. -/
def Pen.run (K : KeySig) (p : Pen) (es : List Upd) : Pen := es.foldl (Pen.step K) p

theorem Pen.run_append (K : KeySig) (p : Pen) (es fs : List Upd) : p.run K (es ++ fs) = (p.run K es).run K fs := List.foldl_append ..

theorem beatsSum_append (es fs : List Upd) : beatsSum (es ++ fs) = beatsSum es + beatsSum fs := by
  induction es with
  | nil => simp [beatsSum, Rat.zero_add]
  | cons e es ih => simp only [List.cons_append, beatsSum, ih]; grind

theorem Pen.step_pos (K : KeySig) (p : Pen) (e : Upd) : (p.step K e).pos = p.pos + beatsUpd e := by
  unfold Pen.step; split <;> rfl

theorem Pen.run_pos (K : KeySig) (es : List Upd) : ∀ p : Pen, (p.run K es).pos = p.pos + beatsSum es := by
  induction es with
  | nil => intro p; simp [Pen.run, beatsSum, Rat.add_zero]
  | cons e es ih =>
    intro p
    show ((p.step K e).run K es).pos = _
    rw [ih, Pen.step_pos, beatsSum]; grind

theorem Pen.member_pos (K : KeySig) (p : Pen) (e : Upd) : (p.member K e).pos = p.pos := by
  unfold Pen.member; split <;> rfl

theorem Pen.members_pos (K : KeySig) (es : List Upd) : ∀ p : Pen, (es.foldl (Pen.member K) p).pos = p.pos := by
  induction es with
  | nil => intro p; rfl
  | cons e es ih => intro p; rw [List.foldl_cons, ih, Pen.member_pos]

/-! ### Chords -/

theorem member_beats {q : Rat} {e : Upd} (h : FlatMember q e) : beatsUpd e = q ∨ beatsUpd e = 0 := by
  cases h with
  | note l a d sl hq => exact .inl (by simp only [beatsUpd]; exact hq.beats)
  | octave n => exact .inr (by simp [beatsUpd])
  | up => exact .inr (by simp [beatsUpd])
  | down => exact .inr (by simp [beatsUpd])

theorem leastPositive_members {q : Rat} (hq : 0 < q) : ∀ es : List Upd, (∀ e ∈ es, FlatMember q e) →
    leastPositive (beatsEach es) = none ∨ leastPositive (beatsEach es) = some q := by
  intro es
  induction es with
  | nil => intro _; exact .inl (by simp [beatsEach, leastPositive])
  | cons e es ih =>
    intro h
    have h1 := ih (fun x hx => h x (List.mem_cons_of_mem _ hx))
    simp only [beatsEach, leastPositive]
    rcases member_beats (h e (List.mem_cons_self ..)) with he | he <;> rw [he]
    · rcases h1 with h1 | h1 <;> rw [h1] <;> simp only
      · exact .inr (by rw [if_pos hq])
      · exact .inr (by rw [if_neg (by grind)])
    · rcases h1 with h1 | h1 <;> rw [h1] <;> simp only
      · exact .inl (by rw [if_neg (by grind)])
      · exact .inr (by rw [if_neg (by grind)])

theorem chord_beats {q : Rat} {l : Letter} {a : Option (List Accidental)} {d : Dur} {sl : Bool} {es : List Upd} (hd : Lasts d q) (h : ∀ e ∈ es, FlatMember q e) :
    beatsUpd (.chord (.leaf (.note (.letter l a) d sl) :: es)) = q := by
  simp only [beatsUpd, beatsEach, leastPositive, hd.beats]
  rcases leastPositive_members hd.2 es h with e | e <;> rw [e] <;> simp only
  · rw [if_pos hd.2]; rfl
  · rw [if_neg (by grind)]; rfl

theorem Flat.nested {e : Upd} (h : Flat e) : nestedUpdates true e = none := by
  cases h <;> simp [nestedUpdates]

/-! ### Searching in a flat line -/

theorem flat_importable {es : List Upd} (h : FlatL es) : importable (.seq es) = true := by
  have e : nestedUpdates true (.seq es) = some es := rfl
  unfold importable
  rw [e]
  simp only
  cases hl : es.getLast? with
  | none => rfl
  | some u => simp only [(h u (List.mem_of_getLast? hl)).1.nested]; rfl

theorem flat_importInto {es : List Upd} (h : FlatL es) : findLastIn importable 0 [.seq es] = some (.seq es, [0]) := by
  simp only [findLastIn, findLastUpd, flat_importable h, if_true]

/-- An event that a chord note can join. -/
inductive Joinable (q : Rat) : Upd → Prop where
  | note (l : Letter) (a : Option (List Accidental)) (d : Dur) (sl : Bool) : Lasts d q → Inner (.leaf (.note (.letter l a) d sl)) →
      Joinable q (.leaf (.note (.letter l a) d sl))
  | chord (l : Letter) (a : Option (List Accidental)) (d : Dur) (sl : Bool) (es : List Upd) : Lasts d q → (∀ e ∈ es, FlatMember q e) →
      Inner (.leaf (.note (.letter l a) d sl)) → (∀ e ∈ es, Inner e) → NeatTail false es → Joinable q (.chord (.leaf (.note (.letter l a) d sl) :: es))

theorem Joinable.flat {q : Rat} {e : Upd} (h : Joinable q e) : Flat e := by
  cases h with
  | note l a d sl hq => exact .note l a d sl q hq
  | chord l a d sl es hq hes => exact .chord q l a d sl es hq hes

theorem Joinable.neat {q : Rat} {e : Upd} (h : Joinable q e) : Neat false e := by
  cases h with
  | note l a d sl hq hi => cases hi with | note _ _ _ _ hn _ => exact .note l a d sl hn
  | chord l a d sl es hq hes hi _ ht => exact .chord l a d sl es hi ht

theorem findLast_last {u : Upd} (p : Upd → Bool) (hp : ∀ i, findLastUpd p i u = some (u, [i])) : ∀ (pre : List Upd) (i : Nat),
    findLastIn p i (pre ++ [u]) = some (u, [i + pre.length]) := by
  intro pre
  induction pre with
  | nil => intro i; simp only [List.nil_append, findLastIn, hp, List.length_nil, Nat.add_zero]
  | cons x pre ih =>
    intro i
    simp only [List.cons_append, findLastIn]
    rw [ih (i + 1)]
    simp only [List.length_cons]
    congr 3; omega

theorem joinable_found {q : Rat} {u : Upd} (h : Joinable q u) (pre : List Upd) :
    findLastIn hasDuration 0 [.seq (pre ++ [u])] = some (u, [0, pre.length]) := by
  have hp : ∀ i, findLastUpd hasDuration i u = some (u, [i]) := by
    intro i
    cases h <;> simp [findLastUpd, hasDuration]
  simp only [findLastIn, findLastUpd]
  rw [if_neg (by simp [hasDuration]), findLast_last _ hp pre 0]
  simp

/-! ### Barlines -/

theorem tryBarline_member {q : Rat} {e e' : Upd} (h : FlatMember q e) (he : tryBarline e = some e') :
    FlatMember q e' ∧ beatsUpd e' = beatsUpd e ∧ ∀ K (p : Pen), p.member K e' = p.member K e := by
  cases h with
  | note l a d sl hq =>
    cases sl with
    | true => simp [tryBarline] at he
    | false =>
      simp only [tryBarline, Option.some.injEq] at he; subst he
      refine ⟨.note l a _ false hq.bar, by simp only [beatsUpd, hq.beats, hq.bar.beats], fun K p => ?_⟩
      simp only [Pen.member, hq.beats, hq.bar.beats]
  | octave n => simp [tryBarline] at he
  | up => simp [tryBarline] at he
  | down => simp [tryBarline] at he

theorem tryBarlineLast_cons (e f : Upd) (es : List Upd) : tryBarlineLast (e :: f :: es) = (tryBarlineLast (f :: es)).map (fun es => e :: es) := by
  simp [tryBarlineLast]

theorem tryBarline_members {q : Rat} : ∀ (es es' : List Upd), (∀ e ∈ es, FlatMember q e) → tryBarlineLast es = some es' →
    (∀ e ∈ es', FlatMember q e) ∧ ∀ K (p : Pen), es'.foldl (Pen.member K) p = es.foldl (Pen.member K) p := by
  intro es
  induction es with
  | nil => intro es' _ h; simp [tryBarlineLast] at h
  | cons e es ih =>
    intro es' h he
    match es, ih with
    | [], _ =>
      simp only [tryBarlineLast, Option.map_eq_some_iff] at he
      obtain ⟨e', he, rfl⟩ := he
      obtain ⟨h1, _, h3⟩ := tryBarline_member (h e (List.mem_cons_self ..)) he
      refine ⟨fun x hx => ?_, fun K p => ?_⟩
      · simp only [List.mem_singleton] at hx; subst hx; exact h1
      · simp only [List.foldl_cons, List.foldl_nil, h3]
    | f :: fs, ih =>
      rw [tryBarlineLast_cons] at he
      simp only [Option.map_eq_some_iff] at he
      obtain ⟨gs, he, rfl⟩ := he
      obtain ⟨h1, h2⟩ := ih gs (fun x hx => h x (List.mem_cons_of_mem _ hx)) he
      refine ⟨fun x hx => ?_, fun K p => ?_⟩
      · rcases List.mem_cons.1 hx with rfl | hx
        · exact h _ (List.mem_cons_self ..)
        · exact h1 x hx
      · rw [List.foldl_cons, List.foldl_cons, h2]

theorem tryBarline_flat {e e' : Upd} (h : Flat e) (he : tryBarline e = some e') :
    Flat e' ∧ beatsUpd e' = beatsUpd e ∧ ∀ K (p : Pen), p.step K e' = p.step K e := by
  cases h with
  | note l a d sl q hq =>
    cases sl with
    | true => simp [tryBarline] at he
    | false =>
      simp only [tryBarline, Option.some.injEq] at he; subst he
      refine ⟨.note l a _ false q hq.bar, by simp only [beatsUpd, hq.beats, hq.bar.beats], fun K p => ?_⟩
      simp only [Pen.step, Pen.member, beatsUpd, hq.beats, hq.bar.beats]
  | rest d q hq =>
    simp only [tryBarline, Option.some.injEq] at he; subst he
    refine ⟨.rest _ q hq.bar, by simp only [beatsUpd, hq.beats, hq.bar.beats], fun K p => ?_⟩
    simp only [Pen.step, Pen.member, beatsUpd, hq.beats, hq.bar.beats]
  | octave n => simp [tryBarline] at he
  | up => simp [tryBarline] at he
  | down => simp [tryBarline] at he
  | dynamic m => simp [tryBarline] at he
  | bar => simp [tryBarline] at he
  | chord q l a d sl es hq hes =>
    simp only [tryBarline, Option.map_eq_some_iff] at he
    obtain ⟨fs, he, rfl⟩ := he
    have key : ∃ d' gs, fs = .leaf (.note (.letter l a) d' sl) :: gs ∧ Lasts d' q ∧ (∀ e ∈ gs, FlatMember q e) := by
      cases es with
      | nil =>
        simp only [tryBarlineLast, Option.map_eq_some_iff] at he
        obtain ⟨e', he, rfl⟩ := he
        cases sl with
        | true => simp [tryBarline] at he
        | false =>
          simp only [tryBarline, Option.some.injEq] at he; subst he
          exact ⟨_, [], rfl, hq.bar, by simp⟩
      | cons x es =>
        rw [tryBarlineLast_cons] at he
        simp only [Option.map_eq_some_iff] at he
        obtain ⟨gs, he, rfl⟩ := he
        exact ⟨d, gs, rfl, hq, (tryBarline_members _ gs hes he).1⟩
    have hmem : ∀ e ∈ (.leaf (.note (.letter l a) d sl) :: es : List Upd), FlatMember q e := by
      intro x hx
      rcases List.mem_cons.1 hx with rfl | hx
      · exact .note l a d sl hq
      · exact hes x hx
    have hrun := (tryBarline_members _ fs hmem he).2
    obtain ⟨d', gs, rfl, hq', hgs⟩ := key
    have hb : beatsUpd (.chord (.leaf (.note (.letter l a) d' sl) :: gs)) = beatsUpd (.chord (.leaf (.note (.letter l a) d sl) :: es)) := by
      rw [chord_beats hq' hgs, chord_beats hq hes]
    refine ⟨.chord q l a d' sl gs hq' hgs, hb, fun K p => ?_⟩
    simp only [Pen.step]
    rw [hrun, hb]

theorem tryBarline_tail {q : Rat} {es : List Upd} (h : NeatTail false es) : (∀ e ∈ es, FlatMember q e) → ∀ es', tryBarlineLast es = some es' → NeatTail false es' := by
  induction h with
  | last l a d sl hn =>
    intro hf es' he
    simp only [tryBarlineLast, Option.map_eq_some_iff] at he
    obtain ⟨e', he, rfl⟩ := he
    cases sl with
    | true => simp [tryBarline] at he
    | false =>
      simp only [tryBarline, Option.some.injEq] at he; subst he
      cases hf _ (List.mem_cons_self ..) with
      | note _ _ _ _ hq => exact .last l a _ false ⟨hn.1, hn.2.1.bar hq, by simp⟩
  | bar l a d sl hb hn => cases hb
  | cons e es hi ht ih =>
    intro hf es' he
    cases es with
    | nil => cases ht
    | cons f fs =>
      rw [tryBarlineLast_cons] at he
      simp only [Option.map_eq_some_iff] at he
      obtain ⟨gs, he, rfl⟩ := he
      exact .cons e gs hi (ih (fun x hx => hf x (List.mem_cons_of_mem _ hx)) gs he)

theorem tryBarline_neat {e e' : Upd} (h : Flat e) (hn : Neat false e) (he : tryBarline e = some e') : Neat false e' := by
  cases h with
  | note l a d sl q hq =>
    cases sl with
    | true => simp [tryBarline] at he
    | false =>
      simp only [tryBarline, Option.some.injEq] at he; subst he
      cases hn with | note _ _ _ _ hn => exact .note l a _ false ⟨hn.1, hn.2.1.bar hq, by simp⟩
  | rest d q hq =>
    simp only [tryBarline, Option.some.injEq] at he; subst he
    cases hn with | rest _ hn => exact .rest _ (hn.bar hq)
  | octave n => simp [tryBarline] at he
  | up => simp [tryBarline] at he
  | down => simp [tryBarline] at he
  | dynamic m => simp [tryBarline] at he
  | bar => simp [tryBarline] at he
  | chord q l a d sl es hq hes =>
    simp only [tryBarline, Option.map_eq_some_iff] at he
    obtain ⟨fs, he, rfl⟩ := he
    cases hn with
    | chord _ _ _ _ _ hi ht =>
      cases es with
      | nil => cases ht
      | cons x es =>
        rw [tryBarlineLast_cons] at he
        simp only [Option.map_eq_some_iff] at he
        obtain ⟨gs, he, rfl⟩ := he
        exact .chord l a d sl gs hi (tryBarline_tail ht hes gs he)

theorem tryBarlineLast_flat : ∀ (es es' : List Upd), FlatL es → tryBarlineLast es = some es' →
    FlatL es' ∧ beatsSum es' = beatsSum es ∧ ∀ K (p : Pen), p.run K es' = p.run K es := by
  intro es
  induction es with
  | nil => intro es' _ h; simp [tryBarlineLast] at h
  | cons e es ih =>
    intro es' h he
    match es, ih with
    | [], _ =>
      simp only [tryBarlineLast, Option.map_eq_some_iff] at he
      obtain ⟨e', he, rfl⟩ := he
      obtain ⟨h1, h2, h3⟩ := tryBarline_flat (h e (List.mem_cons_self ..)).1 he
      exact ⟨FlatL.one h1 (tryBarline_neat (h e (List.mem_cons_self ..)).1 (h e (List.mem_cons_self ..)).2 he), by simp only [beatsSum, h2], fun K p => by simp only [Pen.run, List.foldl_cons, List.foldl_nil, h3]⟩
    | f :: fs, ih =>
      rw [tryBarlineLast_cons] at he
      simp only [Option.map_eq_some_iff] at he
      obtain ⟨gs, he, rfl⟩ := he
      obtain ⟨h1, h2, h3⟩ := ih gs (fun x hx => h x (List.mem_cons_of_mem _ hx)) he
      refine ⟨fun x hx => ?_, ?_, fun K p => ?_⟩
      · rcases List.mem_cons.1 hx with rfl | hx
        · exact h _ (List.mem_cons_self ..)
        · exact h1 x hx
      · rw [beatsSum, h2]; conv => rhs; rw [beatsSum]
      · show (p.step K e).run K gs = (p.step K e).run K (f :: fs)
        rw [h3]

end Importer
end Alda
