import Verif.Lemmas.Print
/-!
A barline after a note with a length: in the text it belongs to the length. Moving it there does not change the text.
-/
namespace Alda
namespace Syn
open Spec Tree

/-- Barlines in a length. -/
def bars (n : Nat) : List DurComp := List.replicate n .barline

/-- Barlines between events. -/
def barUpds (n : Nat) : List Upd := List.replicate n .barline

/-- The text of a note ends in its length. -/
def takesBars (d : Dur) (sl : Bool) : Bool := !d.isEmpty && !sl

/-- The members of a chord that is followed by `n` barlines, and how many of these are not part of its last note. -/
def settleTail (n : Nat) : List Upd → List Upd × Nat
  | [] => ([], n)
  | [.leaf (.note p d sl)] => if takesBars d sl then ([.leaf (.note p (d ++ bars n) sl)], 0) else ([.leaf (.note p d sl)], n)
  | [.leaf (.note p d sl), .barline] =>
    if takesBars d sl then ([.leaf (.note p (d ++ bars (n + 1)) sl)], 0) else ([.leaf (.note p d sl)], n + 1)
  | e :: es => (e :: (settleTail n es).1, (settleTail n es).2)

/-- An event that is followed by `n` barlines. -/
def settleUpd (n : Nat) : Upd → List Upd
  | .leaf (.note p d sl) => if takesBars d sl then [.leaf (.note p (d ++ bars n) sl)] else .leaf (.note p d sl) :: barUpds n
  | .leaf (.rest d) => if takesBars d false then [.leaf (.rest (d ++ bars n))] else .leaf (.rest d) :: barUpds n
  | .chord es => .chord (settleTail n es).1 :: barUpds (settleTail n es).2
  | e => e :: barUpds n

/-- An event, `n` barlines, and more events. -/
def settleFrom (e : Upd) (n : Nat) : List Upd → List Upd
  | [] => settleUpd n e
  | .barline :: us => settleFrom e (n + 1) us
  | u :: us => settleUpd n e ++ settleFrom u 0 us

/-- Events with the barlines where the parser puts them. -/
def settle : List Upd → List Upd
  | [] => []
  | e :: us => settleFrom e 0 us

theorem settleFrom_cons {u : Upd} (h : u ≠ .barline) (e : Upd) (n : Nat) (us : List Upd) : settleFrom e n (u :: us) = settleUpd n e ++ settle (u :: us) := by
  cases u <;> first | exact absurd rfl h | rfl

theorem settleFrom_append {v : Upd} (h : v ≠ .barline) (vs : List Upd) : ∀ (us : List Upd) (e : Upd) (n : Nat),
    settleFrom e n (us ++ v :: vs) = settleFrom e n us ++ settle (v :: vs) := by
  intro us
  induction us with
  | nil => intro e n; rw [List.nil_append, settleFrom_cons h]; rfl
  | cons u us ih =>
    intro e n
    by_cases hu : u = .barline
    · subst hu; simp only [List.cons_append, settleFrom]; exact ih e (n + 1)
    · rw [List.cons_append, settleFrom_cons hu, settleFrom_cons hu, List.append_assoc]
      congr 1
      exact ih u 0

theorem settle_append {v : Upd} (h : v ≠ .barline) (us vs : List Upd) : settle (us ++ v :: vs) = settle us ++ settle (v :: vs) := by
  cases us with
  | nil => rfl
  | cons u us => exact settleFrom_append h vs us u 0

/-- An event that does not take barlines. -/
def Neutral (e : Upd) : Prop := ∀ n, settleUpd n e = e :: barUpds n

theorem settleFrom_neutral {e : Upd} (h : Neutral e) : ∀ (us : List Upd) (n : Nat), settleFrom e n us = e :: settle (barUpds n ++ us) := by
  have hb : ∀ (n : Nat) (us : List Upd), settle (barUpds (n + 1) ++ us) = settleFrom .barline n us := by
    intro n
    have : ∀ (n k : Nat) (us : List Upd), settleFrom .barline k (barUpds n ++ us) = settleFrom .barline (k + n) us := by
      intro n
      induction n with
      | zero => intro k us; rfl
      | succ n ih => intro k us; show settleFrom .barline (k + 1) (barUpds n ++ us) = _; rw [ih]; congr 1; omega
    intro us
    show settleFrom .barline 0 (barUpds n ++ us) = _
    rw [this, Nat.zero_add]
  intro us
  induction us with
  | nil =>
    intro n
    simp only [settleFrom, List.append_nil, h n]
    cases n with
    | zero => rfl
    | succ n => have := hb n []; rw [List.append_nil] at this; rw [this]; rfl
  | cons u us ih =>
    intro n
    by_cases hu : u = .barline
    · subst hu
      simp only [settleFrom]
      rw [ih (n + 1)]
      congr 2
      unfold barUpds
      rw [List.replicate_succ']
      simp
    · rw [settleFrom_cons hu, h n]
      cases n with
      | zero => rfl
      | succ n => rw [hb, settleFrom_cons hu]; rfl

theorem settle_neutral {e : Upd} (h : Neutral e) (us : List Upd) : settle (e :: us) = e :: settle us := settleFrom_neutral h us 0

/-! ### The same text -/

/-- Lists of nodes of which the formatter makes the same. -/
def TextEqs (ns ns' : List Node) : Prop := ∀ f, fmtEvents ns f = fmtEvents ns' f

theorem fmtEvents_join (as bs : List Node) : ∀ f, fmtEvents (as ++ bs) f = (fmtEvents as f >>= fmtEvents bs) := by
  induction as with
  | nil => intro f; rfl
  | cons a as ih =>
    intro f
    simp only [List.cons_append, fmtEvents]
    cases fmtEvent a f with
    | error e => rfl
    | ok f => exact ih f

theorem TextEqs.refl (ns : List Node) : TextEqs ns ns := fun _ => rfl

theorem TextEqs.append {as as' bs bs' : List Node} (h : TextEqs as as') (h2 : TextEqs bs bs') : TextEqs (as ++ bs) (as' ++ bs') := by
  intro f
  rw [fmtEvents_join, fmtEvents_join, h f]
  congr 1
  funext f
  exact h2 f

/-- Groups under construction of which the formatter makes the same. -/
inductive GroupText : Option Group → Option Group → Prop where
  | none : GroupText none none
  | some {b b' e e' : List Node} (n : Int) : TextEqs b b' → TextEqs e e' → GroupText (some ⟨b, n, e⟩) (some ⟨b', n, e'⟩)

theorem TextEqs.voice {ms ms' : List Node} (l l' : Lit) (n : Node) (h : TextEqs ms ms') :
    TextEqs [.mk .voice l [n, .mk .eventSequence l' ms]] [.mk .voice l [n, .mk .eventSequence l' ms']] := by
  intro f
  have h' : fmtEvents ms = fmtEvents ms' := funext h
  simp only [fmtEvents, fmtEvent, h']

theorem TextEqs.group {ms ms' : List Node} (l : Lit) (h : TextEqs ms ms') : TextEqs [.mk .voiceGroup l ms] [.mk .voiceGroup l ms'] := by
  intro f
  have h' : fmtEvents ms = fmtEvents ms' := funext h
  simp only [fmtEvents, fmtEvent, h']

theorem GroupText.nodes {g g' : Option Group} (h : GroupText g g') : TextEqs (groupNodes g) (groupNodes g') := by
  cases h with
  | none => exact .refl _
  | some n hb he => exact hb.append (.voice _ _ _ he)

theorem GroupText.close {g g' : Option Group} (h : GroupText g g') : TextEqs (closeGroup g) (closeGroup g') := by
  cases h with
  | none => exact .refl _
  | some n hb he => exact .group _ (hb.append (.voice _ _ _ he))

/-- Nodes for events outside of the bookkeeping for voices. -/
def genList (order : MapOrder) : List Upd → Except Err (List Node)
  | [] => .ok []
  | u :: us => do
    let n ← genUpd order u
    return n :: (← genList order us)

/-- Where several nodes go. -/
def addNodes (ns : List Node) : List Node × Option Group → List Node × Option Group
  | (dummy, none) => (dummy ++ ns, none)
  | (dummy, some g) => (dummy, some { g with events := g.events ++ ns })

/-- Neither the beginning of a voice nor the end of the voices. -/
def NoVoice (us : List Upd) : Prop := ∀ u ∈ us, (∀ n, u ≠ .voice n) ∧ u ≠ .voiceEnd

theorem genInner_block (order : MapOrder) : ∀ (us vs : List Upd) (d : List Node) (g : Option Group), NoVoice us →
    genInner order (us ++ vs) d g = (genList order us >>= fun ns => genInner order vs (addNodes ns (d, g)).1 (addNodes ns (d, g)).2) := by
  intro us
  induction us with
  | nil =>
    intro vs d g _
    cases g with
    | none => simp [genList, addNodes, bind, Except.bind]
    | some g => simp [genList, addNodes, bind, Except.bind]
  | cons u us ih =>
    intro vs d g h
    rw [List.cons_append, genInner.eq_5 order d g u (us ++ vs) (h u (List.mem_cons_self ..)).1 (h u (List.mem_cons_self ..)).2]
    simp only [genList]
    cases genUpd order u with
    | error e => rfl
    | ok n =>
      simp only [bind, Except.bind]
      rw [ih _ _ _ (fun x hx => h x (List.mem_cons_of_mem _ hx))]
      cases genList order us with
      | error e => rfl
      | ok ns =>
        simp only [bind, Except.bind, pure, Except.pure]
        cases g with
        | none => simp [addNodes, addNode]
        | some g => simp [addNodes, addNode]

/-- What is generated for the events `ys` gives the same text as what is generated for `xs`. -/
def SameText (order : MapOrder) (ys xs : List Upd) : Prop := ∀ ns', genList order ys = .ok ns' → ∃ ns, genList order xs = .ok ns ∧ TextEqs ns ns'

/-- Lists that differ in blocks with the same text. -/
inductive AlikeText (order : MapOrder) : List Upd → List Upd → Prop where
  | nil : AlikeText order [] []
  | same (u : Upd) (ys xs : List Upd) : AlikeText order ys xs → AlikeText order (u :: ys) (u :: xs)
  | block (as bs ys xs : List Upd) : NoVoice as → NoVoice bs → SameText order as bs → AlikeText order ys xs → AlikeText order (as ++ ys) (bs ++ xs)

theorem GroupText.add {g g' : Option Group} {d d' ns ns' : List Node} (h : GroupText g g') (hd : TextEqs d d') (hm : TextEqs ns ns') :
    TextEqs (addNodes ns (d, g)).1 (addNodes ns' (d', g')).1 ∧ GroupText (addNodes ns (d, g)).2 (addNodes ns' (d', g')).2 := by
  cases h with
  | none => exact ⟨hd.append hm, .none⟩
  | some n hb he => exact ⟨hd, .some n hb (he.append hm)⟩

theorem AlikeText.text {order : MapOrder} {ys xs : List Upd} (h : AlikeText order ys xs) : ∀ {d d' : List Node} {g g' : Option Group} {ns' : List Node},
    TextEqs d d' → GroupText g g' → genInner order ys d' g' = .ok ns' → ∃ ns, genInner order xs d g = .ok ns ∧ TextEqs ns ns' := by
  induction h with
  | nil =>
    intro d d' g g' ns' hd hg h
    rw [genInner] at h
    cases h
    exact ⟨_, by rw [genInner], hd.append hg.close⟩
  | block as bs ys xs h1 h2 h3 _ ih =>
    intro d d' g g' ns' hd hg h
    rw [genInner_block order as ys d' g' h1] at h
    obtain ⟨ms', a1, a2⟩ := bind_ok h
    obtain ⟨ms, b1, b2⟩ := h3 ms' a1
    obtain ⟨c1, c2⟩ := hg.add hd b2
    obtain ⟨ns, e1, e2⟩ := ih c1 c2 a2
    exact ⟨ns, by rw [genInner_block order bs xs d g h2, b1]; exact e1, e2⟩
  | same u ys xs _ ih =>
    intro d d' g g' ns' hd hg h
    by_cases h1 : ∃ n, u = .voice n
    · obtain ⟨n, rfl⟩ := h1
      rw [genInner.eq_2] at h ⊢
      exact ih hd (.some n hg.nodes (.refl _)) h
    · by_cases h2 : u = .voiceEnd
      · subst h2
        cases hg with
        | none => simp only [genInner] at h; cases h
        | some n hb he =>
          simp only [genInner] at h ⊢
          exact ih (hd.append (.group _ ((GroupText.nodes (.some n hb he)).append (.refl _)))) .none h
      · have hn : ∀ n, u ≠ .voice n := fun n e => h1 ⟨n, e⟩
        have hnv : NoVoice [u] := by intro x hx; simp only [List.mem_singleton] at hx; subst hx; exact ⟨hn, h2⟩
        have e1 := genInner_block order [u] ys d' g' hnv
        have e2 := genInner_block order [u] xs d g hnv
        simp only [List.singleton_append] at e1 e2
        rw [e1] at h
        obtain ⟨ms, a1, a2⟩ := bind_ok h
        obtain ⟨c1, c2⟩ := hg.add hd (TextEqs.refl ms)
        obtain ⟨ns, e3, e4⟩ := ih c1 c2 a2
        exact ⟨ns, by rw [e2, a1]; exact e3, e4⟩

/-! ### Lengths and chords -/

/-- The node of a barline. -/
def barNode : Node := .mk .barline .none []

theorem genComponents_append (a b : Dur) : genComponents (a ++ b) = (do let x ← genComponents a; return x ++ (← genComponents b)) := by
  induction a with
  | nil => simp only [List.nil_append, genComponents]; cases genComponents b <;> rfl
  | cons c a ih =>
    simp only [List.cons_append, genComponents, ih]
    cases genComponent c with
    | error e => rfl
    | ok n =>
      cases genComponents a with
      | error e => rfl
      | ok ns => cases genComponents b <;> rfl

theorem genComponents_bars (n : Nat) : genComponents (bars n) = .ok (List.replicate n barNode) := by
  induction n with
  | zero => rfl
  | succ n ih =>
    show genComponents (.barline :: bars n) = _
    simp only [genComponents, genComponent, ih]
    rfl

theorem genList_bars (order : MapOrder) (n : Nat) : genList order (barUpds n) = .ok (List.replicate n barNode) := by
  induction n with
  | zero => rfl
  | succ n ih =>
    show genList order (.barline :: barUpds n) = _
    simp only [genList, genUpd, ih]
    rfl

theorem fmtDuration_bars (n : Nat) : ∀ (ns : List Node) (text : List Char) (tie : Bool) (f : Fmt),
    fmtDuration [] (ns ++ List.replicate n barNode) text tie f = (fmtDuration [] ns text tie f >>= fmtEvents (List.replicate n barNode)) := by
  have base : ∀ (n : Nat) (text : List Char) (tie : Bool) (f : Fmt),
      fmtDuration [] (List.replicate n barNode) text tie f = (fmtDuration [] [] text tie f >>= fmtEvents (List.replicate n barNode)) := by
    intro n
    induction n with
    | zero => intro text tie f; simp only [List.replicate]; cases fmtDuration [] [] text tie f <;> rfl
    | succ n ih =>
      intro text tie f
      simp only [List.replicate_succ, fmtDuration, List.append_nil, ite_self]
      simp only [barNode, Node.type, if_true, fmtEvents, fmtEvent]
      cases (if text.isEmpty then Except.ok f else f.write text) with
      | error e => rfl
      | ok f =>
        simp only [bind, Except.bind]
        cases f.write ['|'] with
        | error e => rfl
        | ok f =>
          simp only
          have := ih [] tie f
          simp only [barNode] at this
          rw [this]
          rfl
  intro ns
  induction ns with
  | nil => intro text tie f; exact base n text tie f
  | cons m ns ih =>
    intro text tie f
    simp only [List.cons_append, fmtDuration, List.append_nil, ite_self]
    split
    · cases (if text.isEmpty then Except.ok f else f.write text) with
      | error e => rfl
      | ok f =>
        simp only [bind, Except.bind]
        cases f.write ['|'] with
        | error e => rfl
        | ok f => exact ih [] tie f
    · cases lengthText m with
      | error e => rfl
      | ok t => exact ih _ true f

theorem takesBars_iff {d : Dur} {sl : Bool} (h : takesBars d sl = true) : d ≠ [] ∧ sl = false := by
  unfold takesBars at h
  cases d <;> cases sl <;> simp_all

/-- What is generated for a note that takes barlines. -/
theorem genNote_bars {order : MapOrder} {p : Pitch} {d : Dur} {sl : Bool} (h : takesBars d sl = true) (n : Nat) {m' : Node}
    (hg : genUpd order (.leaf (.note p (d ++ bars n) sl)) = .ok m') :
    ∃ m, genUpd order (.leaf (.note p d sl)) = .ok m ∧ m.type = .note ∧ m'.type = .note ∧ ∀ f, fmtEvent m' f = (fmtEvent m f >>= fmtEvents (List.replicate n barNode)) := by
  obtain ⟨h1, rfl⟩ := takesBars_iff h
  simp only [genUpd] at hg ⊢
  obtain ⟨laa, a1, a2⟩ := bind_ok hg
  obtain ⟨ds, b1, b2⟩ := bind_ok a2
  unfold genDuration at b1 ⊢
  rw [if_neg (by simp [h1])] at b1 ⊢
  rw [genComponents_append, genComponents_bars] at b1
  obtain ⟨x, c1, c2⟩ := bind_ok b1
  obtain ⟨y, e1, e2⟩ := bind_ok c1
  cases e2
  cases c2
  cases b2
  rw [a1, e1]
  refine ⟨_, rfl, rfl, rfl, fun f => ?_⟩
  simp only [fmtEvent, fmtNote, Bool.false_eq_true, if_false, List.append_nil, List.any_cons, List.any_nil, Node.type, Node.children, List.length_cons,
    List.length_nil]
  rw [if_neg (by omega), if_neg (by omega)]
  cases pitchText laa with
  | error e => rfl
  | ok t => exact fmtDuration_bars n y t false f

/-- What is generated for a rest that takes barlines. -/
theorem genRest_bars {order : MapOrder} {d : Dur} (h : takesBars d false = true) (n : Nat) {m' : Node}
    (hg : genUpd order (.leaf (.rest (d ++ bars n))) = .ok m') :
    ∃ m, genUpd order (.leaf (.rest d)) = .ok m ∧ ∀ f, fmtEvent m' f = (fmtEvent m f >>= fmtEvents (List.replicate n barNode)) := by
  obtain ⟨h1, _⟩ := takesBars_iff h
  simp only [genUpd] at hg ⊢
  obtain ⟨ds, b1, b2⟩ := bind_ok hg
  unfold genDuration at b1 ⊢
  rw [if_neg (by simp [h1])] at b1 ⊢
  rw [genComponents_append, genComponents_bars] at b1
  obtain ⟨x, c1, c2⟩ := bind_ok b1
  obtain ⟨y, e1, e2⟩ := bind_ok c1
  cases e2
  cases c2
  cases b2
  rw [e1]
  refine ⟨_, rfl, fun f => ?_⟩
  simp only [fmtEvent, fmtRest, Node.expect, Node.type, Node.children, if_true, bind, Except.bind]
  exact fmtDuration_bars n y ['r'] false f

/-- An event and the same event with the barlines after it. -/
theorem sameText_one {order : MapOrder} {e e' : Upd} {n : Nat} (h : ∀ m', genUpd order e' = .ok m' → ∃ m, genUpd order e = .ok m ∧
    ∀ f, fmtEvent m' f = (fmtEvent m f >>= fmtEvents (List.replicate n barNode))) : SameText order [e'] (e :: barUpds n) := by
  intro ns' hg
  simp only [genList] at hg
  obtain ⟨m', a1, a2⟩ := bind_ok hg
  cases a2
  obtain ⟨m, b1, b2⟩ := h m' a1
  refine ⟨m :: List.replicate n barNode, ?_, fun f => ?_⟩
  · simp only [genList, genList_bars, b1]; rfl
  · simp only [fmtEvents, b2 f]
    cases fmtEvent m f with
    | error e => rfl
    | ok f => simp only [bind, Except.bind]; cases fmtEvents (List.replicate n barNode) f <;> rfl

theorem SameText.refl (order : MapOrder) (us : List Upd) : SameText order us us := fun ns h => ⟨ns, h, .refl ns⟩

/-- The members of a chord after the first one: notes with octave changes between them, at the end a note or a note and a barline. -/
inductive ChordTail : List Upd → Prop where
  | last (p : Pitch) (d : Dur) (sl : Bool) : ChordTail [.leaf (.note p d sl)]
  | bar (p : Pitch) (d : Dur) (sl : Bool) : ChordTail [.leaf (.note p d sl), .barline]
  | cons (l : Leaf) {es : List Upd} : ChordTail es → ChordTail (.leaf l :: es)

theorem ChordTail.first {es : List Upd} (h : ChordTail es) : ∃ l fs, es = .leaf l :: fs := by
  cases h with
  | last p d sl => exact ⟨_, _, rfl⟩
  | bar p d sl => exact ⟨_, _, rfl⟩
  | cons l h => exact ⟨_, _, rfl⟩

theorem settleTail_cons (n : Nat) (l : Leaf) {es : List Upd} (h : ChordTail es) :
    settleTail n (.leaf l :: es) = (.leaf l :: (settleTail n es).1, (settleTail n es).2) := by
  obtain ⟨l', fs, rfl⟩ := h.first
  cases l <;> rfl

theorem genList_noVoice (order : MapOrder) {us : List Upd} (h : NoVoice us) : genInner order us [] none = genList order us := by
  have := genInner_block order us [] [] none h
  rw [List.append_nil] at this
  rw [this]
  cases genList order us with
  | error e => rfl
  | ok ns => simp [addNodes, bind, Except.bind, genInner, closeGroup]

theorem ChordTail.noVoice {es : List Upd} (h : ChordTail es) : NoVoice es := by
  induction h with
  | last p d sl => intro u hu; simp only [List.mem_singleton] at hu; subst hu; simp
  | bar p d sl => intro u hu; simp only [List.mem_cons, List.not_mem_nil, or_false] at hu; rcases hu with rfl | rfl <;> simp
  | cons l _ ih =>
    intro u hu
    rcases List.mem_cons.1 hu with rfl | hu
    · simp
    · exact ih u hu

theorem settleTail_tail (n : Nat) {es : List Upd} (h : ChordTail es) : ChordTail (settleTail n es).1 := by
  induction h with
  | last p d sl => simp only [settleTail]; split <;> exact .last _ _ _
  | bar p d sl => simp only [settleTail]; split <;> exact .last _ _ _
  | cons l h ih => rw [settleTail_cons n l h]; exact .cons l ih

/-- The nodes of a chord and the barlines after it. -/
theorem chordTail_text {order : MapOrder} (n : Nat) {es : List Upd} (h : ChordTail es) : ∀ {ns' : List Node}, genList order (settleTail n es).1 = .ok ns' →
    ∃ ns, genList order es = .ok ns ∧ ns.any isNoteNode = true ∧ ns'.any isNoteNode = true ∧
      ∀ f, (fmtChord ns' f >>= fmtEvents (List.replicate (settleTail n es).2 barNode)) = (fmtChord ns f >>= fmtEvents (List.replicate n barNode)) := by
  have note : ∀ (p : Pitch) (d : Dur) (sl : Bool) (m : Node), genUpd order (.leaf (.note p d sl)) = .ok m → isNoteNode m = true := by
    intro p d sl m hm
    simp only [genUpd] at hm
    obtain ⟨_, _, h2⟩ := bind_ok hm
    obtain ⟨_, _, h3⟩ := bind_ok h2
    cases h3
    rfl
  have one : ∀ (m : Node) f, fmtChord [m] f = fmtEvent m f := by
    intro m f
    simp only [fmtChord, List.any_nil, Bool.and_false, Bool.false_eq_true, if_false]
    cases fmtEvent m f <;> rfl
  have two : ∀ (m : Node) f, fmtChord [m, barNode] f = (fmtEvent m f >>= fmtEvents [barNode]) := by
    intro m f
    have hb : isNoteNode barNode = false := rfl
    simp only [fmtChord, List.any_cons, List.any_nil, hb, Bool.or_false, Bool.and_false, Bool.false_eq_true, if_false]
    rfl
  have more : ∀ (k : Nat) f, fmtEvents (List.replicate (k + 1) barNode) f = (fmtEvents [barNode] f >>= fmtEvents (List.replicate k barNode)) := by
    intro k f
    rw [List.replicate_succ, show barNode :: List.replicate k barNode = [barNode] ++ List.replicate k barNode from rfl, fmtEvents_join]
  have assoc : ∀ (x : Except Err Fmt) (g h : Fmt → Except Err Fmt), ((x >>= g) >>= h) = (x >>= fun y => g y >>= h) := by
    intro x g h; cases x <;> rfl
  have zero : ∀ x : Except Err Fmt, (x >>= fmtEvents (List.replicate 0 barNode)) = x := by intro x; cases x <;> rfl
  induction h with
  | last p d sl =>
    intro ns' hg
    simp only [settleTail] at hg ⊢
    split at hg
    · rename_i ht
      simp only [if_pos ht]
      simp only [genList] at hg
      obtain ⟨m', a1, a2⟩ := bind_ok hg
      cases a2
      obtain ⟨m, b1, _, _, b2⟩ := genNote_bars ht n a1
      refine ⟨[m], by simp only [genList, b1]; rfl, by simp [note _ _ _ _ b1], by simp [note _ _ _ _ a1], fun f => ?_⟩
      rw [one, one, zero, b2 f]
    · rename_i ht
      simp only [if_neg ht]
      refine ⟨ns', hg, ?_, ?_, fun f => rfl⟩
      all_goals
        simp only [genList] at hg
        obtain ⟨m', a1, a2⟩ := bind_ok hg
        cases a2
        simp [note _ _ _ _ a1]
  | bar p d sl =>
    intro ns' hg
    simp only [settleTail] at hg ⊢
    split at hg
    · rename_i ht
      simp only [if_pos ht]
      simp only [genList] at hg
      obtain ⟨m', a1, a2⟩ := bind_ok hg
      cases a2
      obtain ⟨m, b1, _, _, b2⟩ := genNote_bars ht (n + 1) a1
      refine ⟨[m, barNode], by simp only [genList, b1]; rfl, by simp [note _ _ _ _ b1], by simp [note _ _ _ _ a1], fun f => ?_⟩
      rw [one, two, zero, b2 f, assoc]
      congr 1
      funext f
      exact more n f
    · rename_i ht
      simp only [if_neg ht]
      simp only [genList] at hg
      obtain ⟨m, a1, a2⟩ := bind_ok hg
      cases a2
      refine ⟨[m, barNode], by simp only [genList, a1]; rfl, by simp [note _ _ _ _ a1], by simp [note _ _ _ _ a1], fun f => ?_⟩
      rw [one, two, assoc]
      congr 1
      funext f
      exact more n f
  | cons l h ih =>
    intro ns' hg
    rw [settleTail_cons n l h] at hg ⊢
    simp only [genList] at hg
    obtain ⟨m, a1, a2⟩ := bind_ok hg
    obtain ⟨ms', b1, b2⟩ := bind_ok a2
    cases b2
    obtain ⟨ms, c1, c2, c3, c4⟩ := ih b1
    refine ⟨m :: ms, by simp only [genList, a1, c1]; rfl, by simp [c2], by simp [c3], fun f => ?_⟩
    simp only [fmtChord, c2, c3, assoc]
    congr 1
    funext f
    congr 1
    funext f
    exact c4 f

/-- What the importer writes between voices and parts. -/
inductive Settleable : Upd → Prop where
  | chord (l : Leaf) {es : List Upd} : ChordTail es → Settleable (.chord (.leaf l :: es))
  | leaf (l : Leaf) : Settleable (.leaf l)
  | bar : Settleable .barline
  | voice (n : Int) : Settleable (.voice n)

theorem barUpds_noVoice (n : Nat) : NoVoice (barUpds n) := by
  intro u hu
  rw [barUpds, List.mem_replicate] at hu
  rw [hu.2]
  simp

theorem alikeText_bars (order : MapOrder) {ys xs : List Upd} (h : AlikeText order ys xs) : ∀ n, AlikeText order (barUpds n ++ ys) (barUpds n ++ xs) := by
  intro n
  exact .block _ _ _ _ (barUpds_noVoice n) (barUpds_noVoice n) (.refl order _) h

/-- An event followed by barlines. -/
theorem settleUpd_text (order : MapOrder) {e : Upd} (h : Settleable e) (n : Nat) {ys xs : List Upd} (hr : AlikeText order ys xs) :
    AlikeText order (settleUpd n e ++ ys) (e :: (barUpds n ++ xs)) := by
  have one : ∀ {e e' : Upd}, (∀ n, e ≠ .voice n) → e ≠ .voiceEnd → (∀ n, e' ≠ .voice n) → e' ≠ .voiceEnd → SameText order [e'] (e :: barUpds n) → AlikeText order ([e'] ++ ys) ((e :: barUpds n) ++ xs) := by
    intro e e' h1 h2 h3 h4 hs
    refine .block _ _ _ _ ?_ ?_ hs hr
    · intro u hu; simp only [List.mem_singleton] at hu; subst hu; exact ⟨h3, h4⟩
    · intro u hu
      rcases List.mem_cons.1 hu with rfl | hu
      · exact ⟨h1, h2⟩
      · exact barUpds_noVoice n u hu
  have same : ∀ e, AlikeText order (e :: barUpds n ++ ys) (e :: (barUpds n ++ xs)) := fun e => .same _ _ _ (alikeText_bars order hr n)
  cases h with
  | bar => exact same _
  | voice k => exact same _
  | leaf l =>
    cases l with
    | note p d sl =>
      simp only [settleUpd]
      split
      · rename_i ht
        refine one (by simp) (by simp) (by simp) (by simp) (sameText_one fun m' hm => ?_)
        obtain ⟨m, a1, _, _, a2⟩ := genNote_bars ht n hm
        exact ⟨m, a1, a2⟩
      · exact same _
    | rest d =>
      simp only [settleUpd]
      split
      · rename_i ht
        exact one (by simp) (by simp) (by simp) (by simp) (sameText_one fun m' hm => genRest_bars ht n hm)
      · exact same _
    | attr u => exact same _
    | globalAttr u => exact same _
  | @chord l es h =>
    simp only [settleUpd]
    have ht : ChordTail (.leaf l :: es) := .cons l h
    have hs : SameText order (.chord (settleTail n (.leaf l :: es)).1 :: barUpds (settleTail n (.leaf l :: es)).2) (.chord (.leaf l :: es) :: barUpds n) := by
      intro ns' hg
      simp only [genList, genUpd] at hg
      rw [genList_noVoice order (settleTail_tail n ht).noVoice] at hg
      obtain ⟨m', a1, a2⟩ := bind_ok hg
      obtain ⟨ms', b1, b2⟩ := bind_ok a1
      cases b2
      rw [genList_bars] at a2
      cases a2
      obtain ⟨ms, c1, c2, c3, c4⟩ := chordTail_text n ht b1
      refine ⟨.mk .chord .none ms :: List.replicate n barNode, ?_, fun f => ?_⟩
      · rw [genList, genUpd, genList_noVoice order ht.noVoice, c1, genList_bars]; rfl
      · have e1 : ms.isEmpty = false := by cases ms <;> simp_all
        have e2 : ms'.isEmpty = false := by cases ms' <;> simp_all
        simp only [fmtEvents, fmtEvent, e1, e2, Bool.false_eq_true, if_false]
        exact (c4 f).symm
    refine .block _ (.chord (.leaf l :: es) :: barUpds n) _ _ ?_ ?_ hs hr
    all_goals
      intro u hu
      rcases List.mem_cons.1 hu with rfl | hu
      · simp
      · exact barUpds_noVoice _ u hu

theorem settle_text (order : MapOrder) : ∀ (us : List Upd), (∀ u ∈ us, Settleable u) → AlikeText order (settle us) us := by
  have key : ∀ (us : List Upd), (∀ u ∈ us, Settleable u) → ∀ (e : Upd) (n : Nat), Settleable e → AlikeText order (settleFrom e n us) (e :: (barUpds n ++ us)) := by
    intro us
    induction us with
    | nil =>
      intro _ e n he
      have := settleUpd_text order he n (AlikeText.nil (order := order))
      simpa [settleFrom] using this
    | cons u us ih =>
      intro h e n he
      have h' : ∀ v ∈ us, Settleable v := fun v hv => h v (List.mem_cons_of_mem _ hv)
      by_cases hu : u = .barline
      · subst hu
        have := ih h' e (n + 1) he
        simp only [settleFrom]
        have e1 : barUpds n ++ Upd.barline :: us = barUpds (n + 1) ++ us := by
          unfold barUpds; rw [List.replicate_succ']; simp
        rw [e1]
        exact this
      · rw [settleFrom_cons hu]
        exact settleUpd_text order he n (ih h' u 0 (h u (List.mem_cons_self ..)))
  intro us h
  cases us with
  | nil => exact .nil
  | cons e us => exact key us (fun v hv => h v (List.mem_cons_of_mem _ hv)) e 0 (h e (List.mem_cons_self ..))

/-! ### Whole scores -/

/-- Scores that differ in where the barlines are. -/
inductive BarsMoved : List Upd → List Upd → Prop where
  | nil : BarsMoved [] []
  | part (names : List String) (alias : String) (us : List Upd) {rest rest' : List Upd} : (∀ u ∈ us, Settleable u) → BarsMoved rest rest' →
    BarsMoved (.partDecl names alias :: (us ++ rest)) (.partDecl names alias :: (settle us ++ rest'))

theorem splitParts_flat : ∀ (us rest : List Upd), (∀ u ∈ us, ∀ ns a, u ≠ .partDecl ns a) →
    splitParts (us ++ rest) = (us ++ (splitParts rest).1, (splitParts rest).2) := by
  intro us
  induction us with
  | nil => intro rest _; rfl
  | cons u us ih =>
    intro rest h
    have h1 := h u (List.mem_cons_self ..)
    have h2 := ih rest (fun v hv => h v (List.mem_cons_of_mem _ hv))
    cases u <;> first | exact absurd rfl (h1 _ _) | simp [splitParts, h2]

theorem settleUpd_noDecl {e : Upd} (h : Settleable e) (n : Nat) : ∀ u ∈ settleUpd n e, ∀ ns a, u ≠ .partDecl ns a := by
  have hb : ∀ k, ∀ u ∈ barUpds k, ∀ ns a, u ≠ .partDecl ns a := by
    intro k u hu
    rw [barUpds, List.mem_replicate] at hu
    rw [hu.2]; simp
  have hc : ∀ {e : Upd} k, (∀ ns a, e ≠ .partDecl ns a) → ∀ u ∈ e :: barUpds k, ∀ ns a, u ≠ .partDecl ns a := by
    intro e k he u hu
    rcases List.mem_cons.1 hu with rfl | hu
    · exact he
    · exact hb k u hu
  have h1 : ∀ {e : Upd}, (∀ ns a, e ≠ .partDecl ns a) → ∀ u ∈ [e], ∀ ns a, u ≠ .partDecl ns a := fun he u hu => hc 0 he u hu
  cases h with
  | chord l h => exact hc _ (by simp)
  | bar => exact hc _ (by simp)
  | voice k => exact hc _ (by simp)
  | leaf l =>
    cases l with
    | note p d sl => simp only [settleUpd]; split; exact h1 (by simp); exact hc _ (by simp)
    | rest d => simp only [settleUpd]; split; exact h1 (by simp); exact hc _ (by simp)
    | attr u => exact hc _ (by simp)
    | globalAttr u => exact hc _ (by simp)

theorem settle_noDecl {us : List Upd} (h : ∀ u ∈ us, Settleable u) : ∀ u ∈ settle us, ∀ ns a, u ≠ .partDecl ns a := by
  have key : ∀ (us : List Upd), (∀ u ∈ us, Settleable u) → ∀ (e : Upd) (n : Nat), Settleable e → ∀ u ∈ settleFrom e n us, ∀ ns a, u ≠ .partDecl ns a := by
    intro us
    induction us with
    | nil => intro _ e n he; exact settleUpd_noDecl he n
    | cons v us ih =>
      intro h e n he u hu
      have h' : ∀ v ∈ us, Settleable v := fun v hv => h v (List.mem_cons_of_mem _ hv)
      by_cases hv : v = .barline
      · subst hv; exact ih h' e (n + 1) he u hu
      · rw [settleFrom_cons hv] at hu
        rcases List.mem_append.1 hu with hu | hu
        · exact settleUpd_noDecl he n u hu
        · exact ih h' v 0 (h v (List.mem_cons_self ..)) u hu
  cases us with
  | nil => intro u hu; simp [settle] at hu
  | cons e us => exact key us (fun v hv => h v (List.mem_cons_of_mem _ hv)) e 0 (h e (List.mem_cons_self ..))

theorem settleable_noDecl {us : List Upd} (h : ∀ u ∈ us, Settleable u) : ∀ u ∈ us, ∀ ns a, u ≠ .partDecl ns a := by
  intro u hu ns a e
  have := h u hu
  rw [e] at this
  cases this

/-- Scores that differ in where the barlines are have the same text. -/
theorem BarsMoved.text (order : MapOrder) {us vs : List Upd} (h : BarsMoved us vs) {m' : Node} (hg : generate order vs = .ok m') :
    ∃ m, generate order us = .ok m ∧ ∀ w indent, format w indent m = format w indent m' := by
  have key : ∀ {us vs : List Upd}, BarsMoved us vs → (splitParts us).1 = [] ∧ (splitParts vs).1 = [] ∧
      ∀ {ns' : List Node}, genParts order (splitParts vs).2 = .ok ns' → ∃ ns, genParts order (splitParts us).2 = .ok ns ∧ ∀ (w : Fmt), fmtParts ns w = fmtParts ns' w ∧ ns.isEmpty = ns'.isEmpty := by
    intro us vs h
    induction h with
    | nil => exact ⟨rfl, rfl, fun h => ⟨_, h, fun _ => ⟨rfl, rfl⟩⟩⟩
    | part names alias us hu _ ih =>
      obtain ⟨i1, i2, i3⟩ := ih
      simp only [splitParts, splitParts_flat us _ (settleable_noDecl hu), splitParts_flat (settle us) _ (settle_noDecl hu), i1, i2, List.append_nil]
      refine ⟨trivial, trivial, fun {ns'} hg => ?_⟩
      simp only [genParts] at hg
      obtain ⟨ms', h1, h2⟩ := bind_ok hg
      obtain ⟨m', h3, h4⟩ := bind_ok h2
      cases h4
      simp only [genPart] at h3
      obtain ⟨es', h5, h6⟩ := bind_ok h3
      cases h6
      obtain ⟨ms, h7, h8⟩ := i3 h1
      obtain ⟨es, h9, h10⟩ := (settle_text order us hu).text (.refl []) .none h5
      refine ⟨.mk .part .none [
        .mk .partDeclaration .none (.mk .partNames .none (names.map fun n => .mk .partName (.str n) []) ::
          (if alias.isEmpty then [] else [.mk .partAlias (.str alias) []])),
        .mk .eventSequence .none es] :: ms, by simp only [genParts, genPart, h7, h9, ok_bind]; rfl, fun w => ⟨?_, rfl⟩⟩
      have hev : fmtEvents es = fmtEvents es' := funext h10
      have hp : ∀ d f, fmtPart (.mk .part .none [d, .mk .eventSequence .none es]) f = fmtPart (.mk .part .none [d, .mk .eventSequence .none es']) f := by
        intro d f
        simp only [fmtPart, Node.type, Node.children, Node.expect, if_true, ok_bind, hev]
      simp only [fmtParts, hp, (h8 w).2]
      congr 1; funext f; congr 1; funext f; congr 1; funext f
      exact (h8 f).1
  obtain ⟨k1, k2, k3⟩ := key h
  simp only [generate, k2] at hg
  obtain ⟨ps', h1, h2⟩ := bind_ok hg
  cases h2
  obtain ⟨ps, h3, h4⟩ := k3 h1
  refine ⟨_, by simp only [generate, h3, ok_bind, k1]; rfl, ?_⟩
  intro w indent
  simp only [format, Node.children, (h4 _).1]

end Syn
end Alda
