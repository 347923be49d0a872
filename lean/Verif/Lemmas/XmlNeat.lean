import Verif.Lemmas.XmlPart
import Verif.Lemmas.SettlePlay
/-!
The passes of the optimizer keep an imported line neat, and a neat line whose barlines have been moved can be written as text.
-/
namespace Alda
namespace Importer
open Spec Syn

/-! ### Barlines -/

theorem removeBarline_none {d : Dur} (h : d.getLast? ≠ some .barline) : removeBarline d = (d, false) := by
  unfold removeBarline
  split
  · rename_i e; exact absurd e h
  · rfl

theorem removeBarline_neat {d : Dur} (h : NeatDur d) : NeatDur (removeBarline d).1 := by
  unfold removeBarline
  split
  · refine ⟨fun c hc => h.1 c (List.dropLast_subset _ hc), ?_⟩
    simp only
    cases d with
    | nil => exact h.2
    | cons c d =>
      cases d with
      | nil => simp
      | cons c' d => exact h.2
  · exact h

theorem removeBarline_note {a : Option (List Accidental)} {d : Dur} {sl : Bool} (h : NeatNote a d sl) : NeatNote a (removeBarline d).1 sl := by
  refine ⟨h.1, removeBarline_neat h.2.1, fun hs => ?_⟩
  rw [removeBarline_none (h.2.2 hs)]
  exact h.2.2 hs

theorem std_inner {e : Upd} (h : Inner e) : stdUpd e = [e] := by
  cases h with
  | note l a d sl hn hb =>
    have : removeBarline d = (d, false) := removeBarline_none (fun e => hb (List.mem_of_getLast? e))
    simp only [stdUpd, this]
    rfl
  | octave n _ => simp only [stdUpd]
  | up => simp only [stdUpd]
  | down => simp only [stdUpd]

theorem std_tail {es : List Upd} (h : NeatTail false es) : NeatTail true (standardizeBarlines es) := by
  induction h with
  | last l a d sl hn =>
    simp only [standardizeBarlines, stdUpd, List.append_nil]
    split
    · exact .bar l a _ sl rfl (removeBarline_note hn)
    · exact .last l a _ sl (removeBarline_note hn)
  | bar l a d sl hb _ => cases hb
  | cons e es hi _ ih =>
    simp only [standardizeBarlines]
    rw [std_inner hi]
    exact .cons e _ hi ih

theorem std_neat {e : Upd} (h : Neat false e) : ∀ x ∈ stdUpd e, Neat true x := by
  cases h with
  | note l a d sl hn =>
    simp only [stdUpd]
    intro x hx
    rcases List.mem_cons.1 hx with rfl | hx
    · exact .note l a _ sl (removeBarline_note hn)
    · split at hx
      · rw [List.mem_singleton.1 hx]; exact .bar
      · simp at hx
  | rest d hn =>
    simp only [stdUpd]
    intro x hx
    rcases List.mem_cons.1 hx with rfl | hx
    · exact .rest _ (removeBarline_neat hn)
    · split at hx
      · rw [List.mem_singleton.1 hx]; exact .bar
      · simp at hx
  | octave n hn => intro x hx; simp only [stdUpd, List.mem_singleton] at hx; rw [hx]; exact .octave n hn
  | up => intro x hx; simp only [stdUpd, List.mem_singleton] at hx; rw [hx]; exact .up
  | down => intro x hx; simp only [stdUpd, List.mem_singleton] at hx; rw [hx]; exact .down
  | dynamic m hm => intro x hx; simp only [stdUpd, List.mem_singleton] at hx; rw [hx]; exact .dynamic m hm
  | bar => intro x hx; simp only [stdUpd, List.mem_singleton] at hx; rw [hx]; exact .bar
  | chord l a d sl es hi ht =>
    intro x hx
    simp only [stdUpd, List.mem_singleton] at hx
    subst hx
    rw [standardizeBarlines, std_inner hi]
    exact .chord l a d sl _ hi (std_tail ht)

theorem std_neats : ∀ es : List Upd, (∀ e ∈ es, Neat false e) → ∀ e ∈ standardizeBarlines es, Neat true e
  | [], _ => by simp [standardizeBarlines]
  | e :: es, h => by
    intro x hx
    rw [standardizeBarlines] at hx
    rcases List.mem_append.1 hx with hx | hx
    · exact std_neat (h e (List.mem_cons_self ..)) x hx
    · exact std_neats es (fun y hy => h y (List.mem_cons_of_mem _ hy)) x hx

/-! ### Passes that change notes -/

/-- A note with fewer accidentals or without its length, or the same thing. -/
inductive Slim : Upd → Upd → Prop where
  | same (e : Upd) : Slim e e
  | note (l : Letter) (a a' : Option (List Accidental)) (d d' : Dur) (sl : Bool) : a' = a ∨ a' = none → d' = d ∨ d' = [] →
      Slim (.leaf (.note (.letter l a) d sl)) (.leaf (.note (.letter l a') d' sl))
  | rest (d d' : Dur) : d' = d ∨ d' = [] → Slim (.leaf (.rest d)) (.leaf (.rest d'))

/-- All of a list. -/
inductive Slims : List Upd → List Upd → Prop where
  | nil : Slims [] []
  | cons {e e' : Upd} {es es' : List Upd} : Slim e e' → Slims es es' → Slims (e :: es) (e' :: es')

theorem slim_dur {d d' : Dur} (h : NeatDur d) (hd : d' = d ∨ d' = []) : NeatDur d' := by
  rcases hd with rfl | rfl
  · exact h
  · exact ⟨by simp, by simp⟩

theorem slim_note {a a' : Option (List Accidental)} {d d' : Dur} {sl : Bool} (h : NeatNote a d sl) (ha : a' = a ∨ a' = none) (hd : d' = d ∨ d' = []) : NeatNote a' d' sl := by
  refine ⟨?_, slim_dur h.2.1 hd, ?_⟩
  · rcases ha with rfl | rfl
    · exact h.1
    · simp
  · rcases hd with rfl | rfl
    · exact h.2.2
    · simp

theorem slim_inner {e e' : Upd} (hs : Slim e e') (h : Inner e) : Inner e' := by
  cases hs with
  | same => exact h
  | note l a a' d d' sl ha hd =>
    cases h with
    | note _ _ _ _ hn hb =>
      refine .note l a' d' sl (slim_note hn ha hd) ?_
      rcases hd with rfl | rfl
      · exact hb
      · simp
  | rest d d' hd => cases h

theorem slim_letter {l : Letter} {a : Option (List Accidental)} {d : Dur} {sl : Bool} {e' : Upd} (hs : Slim (.leaf (.note (.letter l a) d sl)) e') :
    ∃ a' d', e' = .leaf (.note (.letter l a') d' sl) ∧ (a' = a ∨ a' = none) ∧ (d' = d ∨ d' = []) := by
  cases hs with
  | same => exact ⟨a, d, rfl, .inl rfl, .inl rfl⟩
  | note _ _ a' _ d' _ ha hd => exact ⟨a', d', rfl, ha, hd⟩

theorem slim_bar {e' : Upd} (hs : Slim .barline e') : e' = .barline := by cases hs; rfl

theorem slim_tail {b : Bool} {es : List Upd} (h : NeatTail b es) : ∀ {fs : List Upd}, Slims es fs → NeatTail b fs := by
  induction h with
  | last l a d sl hn =>
    intro fs hs
    cases hs with
    | cons h1 h2 =>
      cases h2
      obtain ⟨a', d', rfl, ha, hd⟩ := slim_letter h1
      exact .last l a' d' sl (slim_note hn ha hd)
  | bar l a d sl hb hn =>
    intro fs hs
    cases hs with
    | cons h1 h2 =>
      cases h2 with
      | cons h3 h4 =>
        cases h4
        obtain ⟨a', d', rfl, ha, hd⟩ := slim_letter h1
        rw [slim_bar h3]
        exact .bar l a' d' sl hb (slim_note hn ha hd)
  | cons e es hi _ ih =>
    intro fs hs
    cases hs with
    | cons h1 h2 => exact .cons _ _ (slim_inner h1 hi) (ih h2)

theorem slim_neat {e e' : Upd} {b : Bool} (h : Neat b e) (hs : Slim e e') : Neat b e' := by
  cases hs with
  | same => exact h
  | note l a a' d d' sl ha hd => cases h with | note _ _ _ _ hn => exact .note l a' d' sl (slim_note hn ha hd)
  | rest d d' hd => cases h with | rest _ hn => exact .rest d' (slim_dur hn hd)

theorem slim_chord {l : Letter} {a : Option (List Accidental)} {d : Dur} {sl : Bool} {es fs : List Upd} {b : Bool} (hi : Inner (.leaf (.note (.letter l a) d sl)))
    (ht : NeatTail b es) (hs : Slims (.leaf (.note (.letter l a) d sl) :: es) fs) : Neat b (.chord fs) := by
  cases hs with
  | cons h1 h2 =>
    have hi' := slim_inner h1 hi
    obtain ⟨a', d', rfl, _, _⟩ := slim_letter h1
    exact .chord l a' d' sl _ hi' (slim_tail ht h2)

/-- Something without parts. -/
def Plain : Upd → Prop
  | .leaf (.note (.midi _) _ _) => False
  | .leaf _ | .barline => True
  | _ => False

theorem inner_plain {e : Upd} (h : Inner e) : Plain e := by cases h <;> trivial

theorem tail_plain {b : Bool} {es : List Upd} (h : NeatTail b es) : ∀ e ∈ es, Plain e := by
  induction h with
  | last l a d sl hn => simp [Plain]
  | bar l a d sl hb hn => simp [Plain]
  | cons e es hi _ ih =>
    intro x hx
    rcases List.mem_cons.1 hx with rfl | hx
    · exact inner_plain hi
    · exact ih x hx

/-- A pass that slims what has no parts keeps everything neat. -/
theorem pass_neat {f : Opt → Upd → Upd × Opt} {fs : Opt → List Upd → List Upd × Opt} {g : Opt → Opt} {g' : Opt → Opt} (hn : ∀ o, (fs o []).1 = [])
    (hc : ∀ o e es, (fs o (e :: es)).1 = (f o e).1 :: (fs (f o e).2 es).1) (hp : ∀ o e, Plain e → Slim e (f o e).1)
    (hch : ∀ o es, f o (.chord es) = (.chord (fs (g o) es).1, g' (fs (g o) es).2)) : ∀ (es : List Upd) (o : Opt) {b : Bool}, (∀ e ∈ es, Neat b e) → ∀ e ∈ (fs o es).1, Neat b e := by
  have slims : ∀ (es : List Upd) (o : Opt), (∀ e ∈ es, Plain e) → Slims es (fs o es).1 := by
    intro es
    induction es with
    | nil => intro o _; rw [hn]; exact .nil
    | cons e es ih => intro o h; rw [hc]; exact .cons (hp o e (h e (List.mem_cons_self ..))) (ih _ (fun x hx => h x (List.mem_cons_of_mem _ hx)))
  have one : ∀ (o : Opt) (e : Upd) {b : Bool}, Neat b e → Neat b (f o e).1 := by
    intro o e b h
    cases h with
    | chord l a d sl es hi ht =>
      rw [hch]
      refine slim_chord hi ht (slims _ _ (fun x hx => ?_))
      rcases List.mem_cons.1 hx with rfl | hx
      · exact inner_plain hi
      · exact tail_plain ht x hx
    | note l a d sl h => exact slim_neat (.note l a d sl h) (hp o _ trivial)
    | rest d h => exact slim_neat (.rest d h) (hp o _ trivial)
    | octave n h => exact slim_neat (.octave n h) (hp o _ trivial)
    | up => exact slim_neat .up (hp o _ trivial)
    | down => exact slim_neat .down (hp o _ trivial)
    | dynamic m h => exact slim_neat (.dynamic m h) (hp o _ trivial)
    | bar => exact slim_neat .bar (hp o _ trivial)
  intro es
  induction es with
  | nil => intro o b _; rw [hn]; simp
  | cons e es ih =>
    intro o b h x hx
    rw [hc] at hx
    rcases List.mem_cons.1 hx with rfl | hx
    · exact one o e (h e (List.mem_cons_self ..))
    · exact ih _ (fun y hy => h y (List.mem_cons_of_mem _ hy)) x hx

theorem acc_slim (o : Opt) (e : Upd) (h : Plain e) : Slim e (accUpd o e).1 := by
  have hr : ∀ r : Upd × Opt, (resetAtBarline r).1 = r.1 := by intro r; unfold resetAtBarline; split <;> rfl
  have : accUpd o e = resetAtBarline (modifyAccidentals o e) := by
    cases e with
    | leaf l => simp only [accUpd]
    | barline => simp only [accUpd]
    | _ => exact absurd h id
  rw [this, hr]
  unfold modifyAccidentals
  split
  · exact .same _
  · rename_i l acc d sl
    split
    · exact .same _
    · split
      · exact .note l acc none d d sl (.inr rfl) (.inl rfl)
      · exact .same _
  · exact .same _

theorem dur_slim (o : Opt) (e : Upd) (h : Plain e) : Slim e (durUpd o e).1 := by
  have : durUpd o e = modifyDuration o e := by
    cases e with
    | leaf l => simp only [durUpd]
    | barline => simp only [durUpd]
    | _ => exact absurd h id
  rw [this]
  have key : Slim e (setNoteOrRestDuration [] e) := by
    match e, h with
    | .leaf (.note (.letter l a) d sl), _ => exact .note l a a d [] sl (.inl rfl) (.inr rfl)
    | .leaf (.rest d), _ => exact .rest d [] (.inr rfl)
    | .leaf (.attr u), _ => exact .same _
    | .leaf (.globalAttr u), _ => exact .same _
    | .barline, _ => exact .same _
  unfold modifyDuration
  split
  · exact .same _
  · simp only
    split
    · exact .same _
    · simp only
      split
      · exact key
      · exact .same _

theorem midi_neat {b : Bool} : ∀ (es : List Upd) (o : Opt), (∀ e ∈ es, Neat b e) → (midiList o es).1 = es := by
  have plain : ∀ (o : Opt) (e : Upd), Plain e → (midiUpd o e).1 = [e] := by
    intro o e h
    match e, h with
    | .leaf (.note (.letter l a) d sl), _ => simp only [midiUpd, modifyMidi]
    | .leaf (.rest d), _ => simp only [midiUpd, modifyMidi]
    | .leaf (.attr u), _ => simp only [midiUpd, modifyMidi]
    | .leaf (.globalAttr u), _ => simp only [midiUpd, modifyMidi]
    | .barline, _ => simp only [midiUpd, modifyMidi]
  have plains : ∀ (es : List Upd) (o : Opt), (∀ e ∈ es, Plain e) → (midiList o es).1 = es := by
    intro es
    induction es with
    | nil => intro o _; simp only [midiList]
    | cons e es ih => intro o h; simp only [midiList, plain o e (h e (List.mem_cons_self ..)), ih _ (fun x hx => h x (List.mem_cons_of_mem _ hx)), List.singleton_append]
  have one : ∀ (o : Opt) (e : Upd), Neat b e → (midiUpd o e).1 = [e] := by
    intro o e h
    cases h with
    | chord l a d sl es hi ht =>
      simp only [midiUpd]
      rw [plains]
      intro x hx
      rcases List.mem_cons.1 hx with rfl | hx
      · exact inner_plain hi
      · exact tail_plain ht x hx
    | _ => exact plain o _ trivial
  intro es
  induction es with
  | nil => intro o _; simp only [midiList]
  | cons e es ih => intro o h; simp only [midiList, one o e (h e (List.mem_cons_self ..)), ih _ (fun x hx => h x (List.mem_cons_of_mem _ hx)), List.singleton_append]

theorem close_neat {b : Bool} : ∀ (es : List Upd), (∀ e ∈ es, Neat b e) → closeList es = es := by
  have plain : ∀ (e : Upd), Plain e → closeUpd e = e := by
    intro e h
    cases e with
    | leaf l => simp only [closeUpd]
    | barline => simp only [closeUpd]
    | _ => exact absurd h id
  have plains : ∀ (es : List Upd), (∀ e ∈ es, Plain e) → closeList es = es := by
    intro es
    induction es with
    | nil => intro _; simp only [closeList]
    | cons e es ih => intro h; simp only [closeList, plain e (h e (List.mem_cons_self ..)), ih (fun x hx => h x (List.mem_cons_of_mem _ hx))]
  have one : ∀ (e : Upd), Neat b e → closeUpd e = e := by
    intro e h
    cases h with
    | chord l a d sl es hi ht =>
      simp only [closeUpd]
      rw [plains]
      intro x hx
      rcases List.mem_cons.1 hx with rfl | hx
      · exact inner_plain hi
      · exact tail_plain ht x hx
    | _ => exact plain _ trivial
  intro es
  induction es with
  | nil => intro _; simp only [closeList]
  | cons e es ih => intro h; simp only [closeList, one e (h e (List.mem_cons_self ..)), ih (fun x hx => h x (List.mem_cons_of_mem _ hx))]

theorem accList_neat : ∀ (es : List Upd) (o : Opt) {b : Bool}, (∀ e ∈ es, Neat b e) → ∀ e ∈ (accList o es).1, Neat b e :=
  pass_neat (f := accUpd) (g := id) (g' := id) (fun o => by simp only [accList]) (fun o e es => by simp only [accList]) acc_slim (fun o es => by simp only [accUpd, id])

theorem durList_neat : ∀ (es : List Upd) (o : Opt) {b : Bool}, (∀ e ∈ es, Neat b e) → ∀ e ∈ (durList o es).1, Neat b e :=
  pass_neat (f := durUpd) (g := Opt.resetDuration) (g' := Opt.resetDuration) (fun o => by simp only [durList]) (fun o e es => by simp only [durList]) dur_slim (fun o es => by simp only [durUpd])

/-- A line that the optimizer has cleaned up. -/
theorem optimize_neat (o : Opt) {es : List Upd} (h : FlatL es) : ∀ e ∈ (optimize o es).1, Neat true e := by
  have h1 := std_neats es (fun e he => (h e he).2)
  have h2 := accList_neat (standardizeBarlines es) o h1
  unfold optimize
  simp only
  rw [midi_neat _ _ h2]
  have h3 := durList_neat _ (midiList (accList o (standardizeBarlines es)).2 (accList o (standardizeBarlines es)).1).2 h2
  rw [close_neat _ h3]
  exact h3

/-! ### Moving barlines -/

theorem tail_chord {b : Bool} {es : List Upd} (h : NeatTail b es) : ChordTail es := by
  induction h with
  | last l a d sl _ => exact .last _ d sl
  | bar l a d sl _ _ => exact .bar _ d sl
  | cons e es hi _ ih => cases hi <;> exact .cons _ ih

theorem inner_leaf {l : Leaf} (h : Inner (.leaf l)) : PlainLeaf l := by
  cases h <;> simp [PlainLeaf, PartUpd.kind]

theorem tail_leaf {b : Bool} {es : List Upd} (h : NeatTail b es) : ∀ l, .leaf l ∈ es → PlainLeaf l := by
  induction h with
  | last l a d sl _ => intro l hl; simp only [List.mem_singleton, Upd.leaf.injEq] at hl; rw [hl]; trivial
  | bar l a d sl _ _ => intro l hl; simp only [List.mem_cons, Upd.leaf.injEq, reduceCtorEq, List.not_mem_nil, or_false] at hl; rw [hl]; trivial
  | cons e es hi _ ih =>
    intro l hl
    rcases List.mem_cons.1 hl with rfl | hl
    · exact inner_leaf hi
    · exact ih l hl

theorem neat_steady {b : Bool} {e : Upd} (h : Neat b e) : Steady e := by
  cases h with
  | chord l a d sl es hi ht => exact .chord _ (tail_chord ht) (inner_leaf hi) (tail_leaf ht)
  | bar => exact .bar
  | note l a d sl h => exact .leaf _ trivial
  | rest d h => exact .leaf _ trivial
  | octave n h => exact .leaf _ (by simp [PlainLeaf, PartUpd.kind])
  | up => exact .leaf _ (by simp [PlainLeaf, PartUpd.kind])
  | down => exact .leaf _ (by simp [PlainLeaf, PartUpd.kind])
  | dynamic m h => exact .leaf _ (by simp [PlainLeaf, PartUpd.kind])

/-! ### Printing -/

theorem neat_printDur {d : Dur} (h : NeatDur d) (hf : ∀ (q : Rat) (k : Nat), DurComp.length q k ∈ d → FiniteDecimal q) : PrintableDur d := by
  refine ⟨fun c hc => ?_, h.2⟩
  rcases h.1 c hc with rfl | ⟨q, k, rfl, h1, h2⟩
  · trivial
  · exact ⟨hf q k hc, h1, h2⟩

theorem neat_bars {d : Dur} (h : NeatDur d) (hd : d ≠ []) (n : Nat) : NeatDur (d ++ bars n) := by
  refine ⟨fun c hc => ?_, ?_⟩
  · rcases List.mem_append.1 hc with hc | hc
    · exact h.1 c hc
    · exact .inl (List.mem_replicate.1 hc).2
  · cases d with
    | nil => exact absurd rfl hd
    | cons c d => exact h.2

theorem finite_bars {d : Dur} (hf : ∀ (q : Rat) (k : Nat), DurComp.length q k ∈ d → FiniteDecimal q) (n : Nat) :
    ∀ (q : Rat) (k : Nat), DurComp.length q k ∈ d ++ bars n → FiniteDecimal q := by
  intro q k hm
  rcases List.mem_append.1 hm with hm | hm
  · exact hf q k hm
  · cases (List.mem_replicate.1 hm).2

theorem neat_printNote {l : Letter} {a : Option (List Accidental)} {d : Dur} {sl : Bool} (h : NeatNote a d sl) (hf : FiniteLeaf (.note (.letter l a) d sl)) :
    PrintableLeaf (.note (.letter l a) d sl) := ⟨h.1, neat_printDur h.2.1 hf, h.2.2⟩

theorem neat_printBars {l : Letter} {a : Option (List Accidental)} {d : Dur} {sl : Bool} (h : NeatNote a d sl) (hf : FiniteLeaf (.note (.letter l a) d sl)) (ht : takesBars d sl = true) (n : Nat) :
    PrintableLeaf (.note (.letter l a) (d ++ bars n) sl) := by
  obtain ⟨hd, hs⟩ := takesBars_iff ht
  exact ⟨h.1, neat_printDur (neat_bars h.2.1 hd n) (finite_bars hf n), fun e => by rw [hs] at e; cases e⟩

theorem inner_print {l : Leaf} (h : Inner (.leaf l)) (hf : FiniteLeaf l) : PrintableLeaf l := by
  cases h with
  | note l a d sl hn _ => exact neat_printNote hn hf
  | octave n hn => exact hn
  | up => trivial
  | down => trivial

/-- How a chord is left. -/
structure Members (fs : List Upd) (k : Nat) : Prop where
  some : fs ≠ []
  leaves : ∀ u ∈ fs, ∃ l, u = .leaf l ∧ PrintableLeaf l
  last : ∀ u ∈ fs.getLast?, PrintedSounding u
  length : 0 < k → ¬ LengthLastL fs

theorem notTakes {p : Pitch} {d : Dur} {sl : Bool} (h : ¬ takesBars d sl = true) : ¬ LengthLast (.leaf (.note p d sl)) := by
  simp only [LengthLast]
  intro ⟨h1, h2⟩
  apply h
  simp [takesBars, h1, h2]

theorem tail_members (n : Nat) {es : List Upd} (h : NeatTail true es) : (∀ l, .leaf l ∈ es → FiniteLeaf l) → Members (settleTail n es).1 (settleTail n es).2 := by
  induction h with
  | last l a d sl hn =>
    intro hf
    have hf := hf _ (List.mem_cons_self ..)
    simp only [settleTail]
    split
    · rename_i ht
      refine ⟨by simp, ?_, by simp [PrintedSounding], by simp⟩
      intro u hu; exact ⟨_, List.mem_singleton.1 hu, neat_printBars hn hf ht n⟩
    · rename_i ht
      refine ⟨by simp, ?_, by simp [PrintedSounding], fun _ => by simp only [LengthLastL]; exact notTakes ht⟩
      intro u hu; exact ⟨_, List.mem_singleton.1 hu, neat_printNote hn hf⟩
  | bar l a d sl _ hn =>
    intro hf
    have hf := hf _ (List.mem_cons_self ..)
    simp only [settleTail]
    split
    · rename_i ht
      refine ⟨by simp, ?_, by simp [PrintedSounding], by simp⟩
      intro u hu; exact ⟨_, List.mem_singleton.1 hu, neat_printBars hn hf ht (n + 1)⟩
    · rename_i ht
      refine ⟨by simp, ?_, by simp [PrintedSounding], fun _ => by simp only [LengthLastL]; exact notTakes ht⟩
      intro u hu; exact ⟨_, List.mem_singleton.1 hu, neat_printNote hn hf⟩
  | cons e es hi ht ih =>
    intro hf
    obtain ⟨l, rfl⟩ : ∃ l, e = .leaf l := by cases hi <;> exact ⟨_, rfl⟩
    have hm := ih (fun l hl => hf l (List.mem_cons_of_mem _ hl))
    rw [settleTail_cons n l (tail_chord ht)]
    simp only
    generalize (settleTail n es).1 = fs at hm ⊢
    generalize (settleTail n es).2 = k at hm ⊢
    cases fs with
    | nil => exact absurd rfl hm.some
    | cons f fs =>
      refine ⟨by simp, ?_, ?_, fun hk => by simp only [LengthLastL]; exact hm.length hk⟩
      · intro u hu
        rcases List.mem_cons.1 hu with rfl | hu
        · exact ⟨l, rfl, inner_print hi (hf l (List.mem_cons_self ..))⟩
        · exact hm.leaves u hu
      · rw [List.getLast?_cons_cons]; exact hm.last

/-- An event that is not a voice. -/
def Event : Upd → Prop
  | .leaf _ | .chord _ | .barline => True
  | _ => False

theorem event_cons {u : Upd} (h : Event u) {b v : Bool} {us : List Upd} (h1 : Printable u) (h2 : ∀ u' ∈ us.head?, ¬ (LengthLast u ∧ BarlineFirst u')) (h3 : PrintableL b v us) :
    PrintableL b v (u :: us) := by
  cases u <;> first | exact absurd h id | (simp only [PrintableL]; exact ⟨h1, fun hr => absurd hr id, h2, h3⟩)

/-- How an event is left. -/
theorem settleUpd_print (n : Nat) {e : Upd} (h : Neat true e) (hf : FiniteLengths e) :
    ∃ e' m, settleUpd n e = e' :: barUpds m ∧ Event e' ∧ Printable e' ∧ (0 < m → ¬ LengthLast e') ∧ (e ≠ .barline → ¬ BarlineFirst e') := by
  cases h with
  | note l a d sl hn =>
    simp only [settleUpd]
    split
    · rename_i ht; exact ⟨_, 0, rfl, trivial, by simp only [Printable]; exact neat_printBars hn hf ht n, by simp, fun _ h => h⟩
    · rename_i ht; exact ⟨_, n, rfl, trivial, by simp only [Printable]; exact neat_printNote hn hf, fun _ => notTakes ht, fun _ h => h⟩
  | rest d hn =>
    simp only [settleUpd]
    split
    · rename_i ht
      exact ⟨_, 0, rfl, trivial, by simp only [Printable]; exact neat_printDur (neat_bars hn (takesBars_iff ht).1 n) (finite_bars hf n), by simp, fun _ h => h⟩
    · rename_i ht
      refine ⟨_, n, rfl, trivial, by simp only [Printable]; exact neat_printDur hn hf, fun _ hl => ?_, fun _ h => h⟩
      simp only [LengthLast] at hl
      exact ht (by simp [takesBars, hl])
  | octave k hk => exact ⟨_, n, rfl, trivial, by simp only [Printable]; exact hk, fun _ h => by simp [LengthLast] at h, fun _ h => h⟩
  | up => exact ⟨_, n, rfl, trivial, by simp only [Printable]; trivial, fun _ h => by simp [LengthLast] at h, fun _ h => h⟩
  | down => exact ⟨_, n, rfl, trivial, by simp only [Printable]; trivial, fun _ h => by simp [LengthLast] at h, fun _ h => h⟩
  | dynamic m hm => exact ⟨_, n, rfl, trivial, by simp only [Printable]; exact hm, fun _ h => by simp [LengthLast] at h, fun _ h => h⟩
  | bar => exact ⟨_, n, rfl, trivial, by simp only [Printable], fun _ h => by simp [LengthLast] at h, fun h => absurd rfl h⟩
  | chord l a d sl es hi ht =>
    have hm := tail_members n ht (fun l hl => hf l (List.mem_cons_of_mem _ hl))
    have hl := inner_print hi (hf _ (List.mem_cons_self ..))
    simp only [settleUpd]
    rw [settleTail_cons n _ (tail_chord ht)]
    simp only
    generalize (settleTail n es).1 = fs at hm ⊢
    generalize (settleTail n es).2 = k at hm ⊢
    cases fs with
    | nil => exact absurd rfl hm.some
    | cons f fs =>
      refine ⟨_, k, rfl, trivial, ?_, fun hk => by simp only [LengthLast, LengthLastL]; exact hm.length hk, fun _ h => h⟩
      simp only [Printable]
      refine ⟨by simp, ?_, by simp [PrintedSounding], by rw [List.getLast?_cons_cons]; exact hm.last, ?_⟩
      · intro u hu
        rcases List.mem_cons.1 hu with rfl | hu
        · trivial
        · obtain ⟨l', rfl, _⟩ := hm.leaves u hu; trivial
      · simp only [PrintableAll]
        refine ⟨by simp only [Printable]; exact hl, ?_⟩
        have : ∀ us : List Upd, (∀ u ∈ us, ∃ l, u = .leaf l ∧ PrintableLeaf l) → PrintableAll us := by
          intro us
          induction us with
          | nil => intro _; simp only [PrintableAll]
          | cons u us ih =>
            intro h
            simp only [PrintableAll]
            obtain ⟨l', rfl, h'⟩ := h u (List.mem_cons_self ..)
            exact ⟨by simp only [Printable]; exact h', ih (fun x hx => h x (List.mem_cons_of_mem _ hx))⟩
        have := this (f :: fs) hm.leaves
        simpa only [PrintableAll] using this

/-- No barline comes first. -/
def OpenStart (us : List Upd) : Prop := ∀ u ∈ us.head?, ¬ BarlineFirst u

theorem bars_print (n : Nat) {v : Bool} {us : List Upd} (h : PrintableL false v us) : PrintableL false v (barUpds n ++ us) := by
  induction n with
  | zero => exact h
  | succ n ih => exact event_cons (u := .barline) trivial (by simp only [Printable]) (fun _ _ h => by simp [LengthLast] at h) ih

/-- A line with its barlines moved can be written. -/
theorem settle_print {v : Bool} {rest : List Upd} (h0 : OpenStart rest) (hr : PrintableL false v rest) (us : List Upd) (h : ∀ u ∈ us, Neat true u ∧ FiniteLengths u) :
    PrintableL false v (settle us ++ rest) ∧ (us.head? ≠ some .barline → OpenStart (settle us ++ rest)) := by
  have key : ∀ (us : List Upd), (∀ u ∈ us, Neat true u ∧ FiniteLengths u) → ∀ (e : Upd) (n : Nat), Neat true e → FiniteLengths e →
      PrintableL false v (settleFrom e n us ++ rest) ∧ (e ≠ .barline → OpenStart (settleFrom e n us ++ rest)) := by
    have block : ∀ (e : Upd) (n : Nat) (R : List Upd), Neat true e → FiniteLengths e → OpenStart R → PrintableL false v R →
        PrintableL false v (settleUpd n e ++ R) ∧ (e ≠ .barline → OpenStart (settleUpd n e ++ R)) := by
      intro e n R he hf h0 hR
      obtain ⟨e', m, e1, e2, e3, e4, e5⟩ := settleUpd_print n he hf
      rw [e1]
      refine ⟨event_cons e2 e3 ?_ (bars_print m hR), fun hb u hu => ?_⟩
      · intro u hu ⟨hl, hb⟩
        cases m with
        | zero => exact h0 u hu hb
        | succ m => exact e4 (by omega) hl
      · simp only [List.cons_append, List.head?_cons, Option.mem_some_iff] at hu
        subst hu
        exact e5 hb
    intro us
    induction us with
    | nil => intro _ e n he hf; exact block e n rest he hf h0 hr
    | cons u us ih =>
      intro h e n he hf
      have h' : ∀ x ∈ us, Neat true x ∧ FiniteLengths x := fun x hx => h x (List.mem_cons_of_mem _ hx)
      by_cases hu : u = .barline
      · subst hu; simp only [settleFrom]; exact ih h' e (n + 1) he hf
      · rw [settleFrom_cons hu, List.append_assoc]
        obtain ⟨a, b⟩ := ih h' u 0 (h u (List.mem_cons_self ..)).1 (h u (List.mem_cons_self ..)).2
        exact block e n _ he hf (b hu) a
  cases us with
  | nil => exact ⟨hr, fun _ => h0⟩
  | cons e us =>
    obtain ⟨a, b⟩ := key us (fun x hx => h x (List.mem_cons_of_mem _ hx)) e 0 (h e (List.mem_cons_self ..)).1 (h e (List.mem_cons_self ..)).2
    exact ⟨a, fun hb => b (fun e' => hb (by rw [e']; rfl))⟩

end Importer
end Alda
