import Verif.Lemmas.Settle
import Verif.Lemmas.ImportPasses
/-!
Moving a barline from behind a note into the length of the note does not change what is heard.
-/
namespace Alda
open Spec Importer Syn

theorem bars_add (n : Nat) : bars (n + 1) = bars n ++ [.barline] := by unfold bars; rw [List.replicate_succ']

theorem bars_length (d : Dur) (n : Nat) : SameLength (d ++ bars n) d := by
  induction n with
  | zero => intro T; simp [bars]
  | succ n ih =>
    intro T
    rw [bars_add, ← List.append_assoc]
    exact (toMsFrom_barline T (d ++ bars n) 0).trans (ih T)

theorem bars_valid (d : Dur) (n : Nat) : (d ++ bars n).valid = d.valid := by
  induction n with
  | zero => simp [bars]
  | succ n ih =>
    rw [bars_add, ← List.append_assoc]
    exact (validList_barline (d ++ bars n)).trans ih

theorem bars_fits {d : Dur} {sl : Bool} (h : takesBars d sl = true) (n : Nat) (c : List Nat) (s : Score) : Fits (d ++ bars n) d c s := by
  have hd := (takesBars_iff h).1
  exact .given (by simp [hd]) hd (fun T => (bars_length d n T).symm)

/-- Anything but a change of the default duration or of a global attribute. -/
def PlainLeaf : Leaf → Prop
  | .attr u => u.kind ≠ .duration
  | .globalAttr _ => False
  | _ => True

theorem settle_attr_member {c : List Nat} {deref : List Upd → Score → Out} {u : PartUpd} (hu : u.kind ≠ .duration) (es es' : List Upd)
    (ih : ∀ m s s', DurRel s s' → s.current = c → ChordRel c (chordEvents deref es m s) (chordEvents deref es' m s'))
    (m : Shortest) (s s' : Score) (hr : DurRel s s') (hc : s.current = c) :
    ChordRel c (chordEvents deref (.leaf (.attr u) :: es) m s) (chordEvents deref (.leaf (.attr u) :: es') m s') := by
  simp only [chordEvents]
  rw [hr.current, hc, shortest_rel hr (Fits.refl (specifiedDuration (.leaf (.attr u))) c s')]
  cases shortestLoop s (specifiedDuration (.leaf (.attr u))) c m with
  | none => exact ⟨⟨rfl, hr, hc⟩, fun he => by simp [Out.fail] at he⟩
  | some m1 =>
    simp only
    have a := (attr_rel (d := []) u hu hr hc (.inl rfl)).1
    rcases ho : attrUpd u s with ⟨err, t⟩
    rcases ho' : attrUpd u s' with ⟨err', t'⟩
    rw [ho, ho'] at a
    simp only [updWith, leafUpd, ho, ho']
    have := a.err
    simp only at this
    subst this
    cases err' with
    | some x => exact ⟨⟨rfl, a.rel, a.cur⟩, fun he => by simp [Out.fail] at he⟩
    | none => exact ih m1 t t' a.rel a.cur

theorem settle_note_member {c : List Nat} {deref : List Upd → Score → Out} (p : Pitch) {d d' : Dur} (sl : Bool) (b : Bool) (hv : d'.valid = d.valid) (hf : ∀ s, Fits d d' c s) (es es' : List Upd)
    (ih : ∀ m s s', DurRel s s' → s.current = c → ChordRel c (chordEvents deref es m s) (chordEvents deref es' m s'))
    (m : Shortest) (s s' : Score) (hr : DurRel s s') (hc : s.current = c) :
    ChordRel c (chordEvents deref (.leaf (.note p d sl) :: es) m s) (chordEvents deref (.leaf (.note p d' sl) :: (if b then [.barline] else []) ++ es') m s') := by
  refine std_member (e := .leaf (.note p d sl)) (e' := .leaf (.note p d' sl)) b ?_ hf ?_ es es' ih m s s' hr hc
  · intro s s' hr hc
    obtain ⟨x, y⟩ := noteUpd_rel p d d' sl hv hr hc (hf s')
    exact ⟨x, fun he => (y he).1⟩
  · intro s hs; exact noteUpd_timed _ _ _ hs

theorem settle_rest_member {c : List Nat} {deref : List Upd → Score → Out} (d : Dur) (es es' : List Upd)
    (ih : ∀ m s s', DurRel s s' → s.current = c → ChordRel c (chordEvents deref es m s) (chordEvents deref es' m s'))
    (m : Shortest) (s s' : Score) (hr : DurRel s s') (hc : s.current = c) :
    ChordRel c (chordEvents deref (.leaf (.rest d) :: es) m s) (chordEvents deref (.leaf (.rest d) :: es') m s') := by
  refine std_member (e := .leaf (.rest d)) (e' := .leaf (.rest d)) false ?_ (fun s => .refl _ c s) ?_ es es' ih m s s' hr hc
  · intro s s' hr hc
    obtain ⟨x, y⟩ := restUpd_rel d d rfl hr hc (.refl d c s')
    exact ⟨x, fun he => (y he).1⟩
  · intro s hs; exact restUpd_timed _ hs

theorem settle_chord {c : List Nat} {deref : List Upd → Score → Out} (n : Nat) {es : List Upd} (h : ChordTail es) : (∀ l, .leaf l ∈ es → PlainLeaf l) → ∀ (m : Shortest) (s s' : Score),
    DurRel s s' → s.current = c → ChordRel c (chordEvents deref (settleTail n es).1 m s) (chordEvents deref es m s') := by
  have none : ∀ (m : Shortest) (s s' : Score), DurRel s s' → s.current = c → ChordRel c (chordEvents deref [] m s) (chordEvents deref [] m s') := fun m s s' hr hc => ⟨⟨rfl, hr, hc⟩, fun _ => rfl⟩
  induction h with
  | last p d sl =>
    intro _ m s s' hr hc
    simp only [settleTail]
    split
    · rename_i ht; exact settle_note_member p sl false (bars_valid d n).symm (fun s => bars_fits ht n c s) [] [] none m s s' hr hc
    · exact settle_note_member p sl false rfl (fun s => .refl _ c s) [] [] none m s s' hr hc
  | bar p d sl =>
    intro _ m s s' hr hc
    simp only [settleTail]
    split
    · rename_i ht; exact settle_note_member p sl true (bars_valid d (n + 1)).symm (fun s => bars_fits ht (n + 1) c s) [] [] none m s s' hr hc
    · exact settle_note_member p sl true rfl (fun s => .refl _ c s) [] [] none m s s' hr hc
  | @cons l es h ih =>
    intro hp m s s' hr hc
    rw [settleTail_cons n l h]
    have ih' := ih (fun l' hl => hp l' (List.mem_cons_of_mem _ hl))
    have hl := hp l (List.mem_cons_self ..)
    cases l with
    | note p d sl => exact settle_note_member p sl false rfl (fun s => .refl _ c s) _ _ ih' m s s' hr hc
    | rest d => exact settle_rest_member d _ _ ih' m s s' hr hc
    | attr u => exact settle_attr_member hl _ _ ih' m s s' hr hc
    | globalAttr u => exact absurd hl id

/-- Something that plays the same when the barlines are moved. -/
inductive Steady : Upd → Prop where
  | chord (l : Leaf) {es : List Upd} : ChordTail es → PlainLeaf l → (∀ l, .leaf l ∈ es → PlainLeaf l) → Steady (.chord (.leaf l :: es))
  | leaf (l : Leaf) : PlainLeaf l → Steady (.leaf l)
  | bar : Steady .barline

theorem Steady.settleable {e : Upd} (h : Steady e) : Settleable e := by
  cases h with
  | chord l h _ _ => exact .chord l h
  | leaf l _ => exact .leaf l
  | bar => exact .bar

theorem updList_bars {deref : List Upd → Score → Out} (n : Nat) (s : Score) : updListWith deref (barUpds n) s = .ok s := by
  induction n with
  | zero => rfl
  | succ n ih =>
    show updListWith deref (.barline :: barUpds n) s = _
    simp only [updListWith, updWith, Out.ok, Out.andThen]
    exact ih

theorem andThen_bars {deref : List Upd → Score → Out} (e : Upd) (n : Nat) (s : Score) : updListWith deref (e :: barUpds n) s = updWith deref e s := by
  simp only [updListWith]
  rcases updWith deref e s with ⟨err, t⟩
  cases err with
  | none => exact updList_bars n t
  | some x => rfl

theorem settleUpd_plays {c : List Nat} {deref : List Upd → Score → Out} {e : Upd} (h : Steady e) (n : Nat) : RelBody c (updListWith deref (settleUpd n e)) (updWith deref e) := by
  intro s s' hr hc
  cases h with
  | bar => rw [show settleUpd n .barline = .barline :: barUpds n from rfl, andThen_bars]; exact ⟨rfl, hr, hc⟩
  | chord l h h1 h2 =>
    simp only [settleUpd]
    rw [andThen_bars]
    refine chord_rel (fun m s s' hr hc => settle_chord n (.cons l h) ?_ m s s' hr hc) s s' hr hc
    intro l' hl'
    rcases List.mem_cons.1 hl' with e | hl'
    · cases e; exact h1
    · exact h2 l' hl'
  | leaf l hl =>
    cases l with
    | note p d sl =>
      simp only [settleUpd]
      split
      · rename_i ht
        rw [updList_one]
        exact (noteUpd_rel p (d ++ bars n) d sl (bars_valid d n).symm hr hc (bars_fits ht n c s')).1
      · rw [andThen_bars]
        exact (noteUpd_rel p d d sl rfl hr hc (.refl d c s')).1
    | rest d =>
      simp only [settleUpd]
      split
      · rename_i ht
        rw [updList_one]
        exact (restUpd_rel (d ++ bars n) d (bars_valid d n).symm hr hc (bars_fits ht n c s')).1
      · rw [andThen_bars]
        exact (restUpd_rel d d rfl hr hc (.refl d c s')).1
    | attr u =>
      rw [show settleUpd n (.leaf (.attr u)) = .leaf (.attr u) :: barUpds n from rfl, andThen_bars]
      exact (attr_rel (d := []) u hl hr hc (.inl rfl)).1
    | globalAttr u => exact absurd hl id

/-- A line with its barlines moved. -/
theorem settle_plays {c : List Nat} {deref : List Upd → Score → Out} (us : List Upd) (h : ∀ u ∈ us, Steady u) : RelBody c (updListWith deref (settle us)) (updListWith deref us) := by
  have key : ∀ (us : List Upd), (∀ u ∈ us, Steady u) → ∀ (e : Upd) (n : Nat), Steady e → RelBody c (updListWith deref (settleFrom e n us)) (updListWith deref (e :: us)) := by
    intro us
    induction us with
    | nil =>
      intro _ e n he s s' hr hc
      rw [updList_one]
      exact settleUpd_plays he n s s' hr hc
    | cons u us ih =>
      intro h e n he s s' hr hc
      have h' : ∀ v ∈ us, Steady v := fun v hv => h v (List.mem_cons_of_mem _ hv)
      by_cases hu : u = .barline
      · subst hu
        have := ih h' e (n + 1) he s s' hr hc
        have e1 : updListWith deref (e :: .barline :: us) s' = updListWith deref (e :: us) s' := by
          simp only [updListWith, updWith, Out.ok, Out.andThen]
        rw [e1]
        exact this
      · rw [settleFrom_cons hu, updList_append]
        conv => rhs; rw [updListWith]
        exact (settleUpd_plays he n s s' hr hc).andThen (fun t t' ht htc _ _ _ => ih h' u 0 (h u (List.mem_cons_self ..)) t t' ht htc)
  cases us with
  | nil => exact fun _ _ hr hc => ⟨rfl, hr, hc⟩
  | cons e us => exact key us (fun v hv => h v (List.mem_cons_of_mem _ hv)) e 0 (h e (List.mem_cons_self ..))

end Alda
