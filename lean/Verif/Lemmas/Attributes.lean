import Verif.Spec.Attributes
import Verif.Lemmas.Globals
import Verif.Lemmas.Gen
import Verif.Props.Lisp
import Verif.Props.Pitch
/-!
Lemmas for C62: how an attribute expression is looked up and evaluated.
-/
namespace Alda
open Spec

/-! ### Finding the function -/

theorem lookup_of_mem {β : Type} (l : List (String × β)) (hn : (l.map (·.1)).Nodup) {k : String} {v : β} (h : (k, v) ∈ l) : l.lookup k = some v := by
  induction l with
  | nil => cases h
  | cons x l ih =>
    rw [List.map_cons, List.nodup_cons] at hn
    rcases List.mem_cons.1 h with h | h
    · subst h; simp [List.lookup]
    · have hne : (k == x.1) = false := by
        apply beq_false_of_ne
        intro he
        exact hn.1 (he ▸ List.mem_map.2 ⟨_, h, rfl⟩)
      simp only [List.lookup, hne]
      exact ih hn.2 h

theorem environment_nodup : (environment.map (·.1)).Nodup := by decide +kernel

theorem lookupFn_attr {x : List String × List (List ArgType × (List LispForm → Except Err PartUpd))} (hx : x ∈ attributeFns) {n : String} (hn : n ∈ x.1) :
    lookupFn n = some (x.2.map (attrSignature .attr)) ∧ lookupFn (n ++ "!") = some (x.2.map (attrSignature .globalAttr)) := by
  have h : ∀ k v, (k, v) ∈ defattribute x → lookupFn k = some v := by
    intro k v h
    apply lookup_of_mem
    · rw [List.map_reverse]; exact List.pairwise_reverse.2 (environment_nodup.imp (fun h => Ne.symm h))
    · exact List.mem_reverse.2 (List.mem_append_left _ (List.mem_flatMap.2 ⟨x, hx, h⟩))
  exact ⟨h _ _ (List.mem_flatMap.2 ⟨n, hn, by simp⟩), h _ _ (List.mem_flatMap.2 ⟨n, hn, by simp⟩)⟩

/-- The implementation that is chosen, and its result. -/
def attrResult (vs : List LispForm) : List (List ArgType × (List LispForm → Except Err PartUpd)) → Except Err PartUpd
  | [] => .error (.user "provided arguments do not match the signature")
  | s :: rest => if argumentsMatchSignature vs s.1 then s.2 vs else attrResult vs rest

theorem operate_attr (mk : PartUpd → Leaf) (vs : List LispForm) (sigs : List (List ArgType × (List LispForm → Except Err PartUpd))) :
    operate (sigs.map (attrSignature mk)) vs = (attrResult vs sigs).map (fun u => .update (mk u)) := by
  induction sigs with
  | nil => rfl
  | cons s sigs ih =>
    simp only [List.map_cons, operate, attrResult, attrSignature]
    split
    · rfl
    · exact ih

theorem quote_not_attr : ∀ x ∈ attributeFns, ∀ n ∈ x.1, n ≠ "quote" ∧ n ++ "!" ≠ "quote" := by
  have h : ∀ n ∈ (attributeFns.map (·.1)).flatten, n ≠ "quote" ∧ n ++ "!" ≠ "quote" := by decide +kernel
  exact fun x hx n hn => h n (List.mem_flatten.2 ⟨_, List.mem_map.2 ⟨x, hx, rfl⟩, hn⟩)

/-- Evaluating `(name args…)` and `(name! args…)`. -/
theorem lispUpdate_attr {x : List String × List (List ArgType × (List LispForm → Except Err PartUpd))} (hx : x ∈ attributeFns) {n : String} (hn : n ∈ x.1)
    {args vs : List LispForm} (hv : LispForm.evalArgs args = .ok vs) :
    lispUpdate (.sym n :: args) = (attrResult vs x.2).map (fun u => some (.attr u)) ∧
    lispUpdate (.sym (n ++ "!") :: args) = (attrResult vs x.2).map (fun u => some (.globalAttr u)) := by
  obtain ⟨h1, h2⟩ := lookupFn_attr hx hn
  obtain ⟨q1, q2⟩ := quote_not_attr x hx n hn
  constructor
  · simp only [lispUpdate, LispForm.eval, evalSym, if_neg q1, h1, hv, operate_attr]
    cases attrResult vs x.2 <;> rfl
  · simp only [lispUpdate, LispForm.eval, evalSym, if_neg q2, h2, hv, operate_attr]
    cases attrResult vs x.2 <;> rfl

/-! ### Note values -/

theorem rat_div_nonneg {a b : Rat} (ha : 0 ≤ a) (hb : 0 < b) : 0 ≤ a / b := by
  rw [Rat.div_def]; exact Rat.mul_nonneg ha (Rat.le_of_lt (Rat.inv_pos.2 hb))

theorem splitChar_append (sep : Char) (w rest : List Char) (h : sep ∉ w) : splitChar sep (w ++ sep :: rest) = w :: splitChar sep rest := by
  induction w with
  | nil =>
    simp only [List.nil_append, splitChar]
    cases hs : splitChar sep rest with
    | nil => cases rest <;> simp [splitChar] at hs <;> split at hs <;> (try split at hs) <;> simp at hs
    | cons v vs => simp
  | cons c w ih =>
    rw [List.mem_cons, not_or] at h
    simp only [List.cons_append, splitChar, ih h.2, if_neg (Ne.symm h.1)]

theorem splitChar_plain (sep : Char) (w : List Char) (h : sep ∉ w) : splitChar sep w = [w] := by
  induction w with
  | nil => rfl
  | cons c w ih =>
    rw [List.mem_cons, not_or] at h
    simp only [splitChar, ih h.2, if_neg (Ne.symm h.1)]

theorem allDigits_no_tie {w : List Char} (h : AllDigits w) : '~' ∉ w := fun hm => absurd (h _ hm) (by decide)

theorem lengthText_no_tie {cs : List Char} {d : Rat} {k : Nat} (h : NoteLengthText cs d k) : '~' ∉ cs := by
  cases h with
  | whole w k _ hw =>
    rw [List.mem_append, not_or]
    exact ⟨allDigits_no_tie hw, fun h => absurd (List.eq_of_mem_replicate h) (by decide)⟩
  | decimal w f k _ hw _ hf =>
    simp only [List.mem_append, List.mem_cons, not_or]
    exact ⟨⟨allDigits_no_tie hw, by decide, allDigits_no_tie hf⟩, fun h => absurd (List.eq_of_mem_replicate h) (by decide)⟩

theorem lengthText_nonneg {cs : List Char} {d : Rat} {k : Nat} (h : NoteLengthText cs d k) : 0 ≤ d := by
  have hn : ∀ n : Nat, (0 : Rat) ≤ n := fun n => by exact_mod_cast Nat.zero_le n
  have hp : ∀ n : Nat, (0 : Rat) < 10 ^ n := fun n => by
    induction n with
    | zero => decide
    | succ n ih => rw [Rat.pow_succ]; grind
  cases h with
  | whole w k => exact hn _
  | decimal w f k =>
    have := hn (Spec.decimal w)
    have := rat_div_nonneg (hn (Spec.decimal f)) (hp f.length)
    grind

/-- The components of tied note lengths. -/
def tiedComps (ls : List (Rat × Nat)) : List DurComp := ls.map (fun x => .length x.1 x.2)

theorem noteLengths_tied {cs : List Char} {ls : List (Rat × Nat)} (h : Lengths cs ls) : noteLengths (splitChar '~' cs) = .ok (tiedComps ls) := by
  induction h with
  | one cs d k h =>
    rw [splitChar_plain _ _ (lengthText_no_tie h)]
    simp only [noteLengths, c28_grammar_accepted cs d k h]; rfl
  | tied cs rest d k ls h _ ih =>
    rw [splitChar_append _ _ _ (lengthText_no_tie h)]
    simp only [noteLengths, c28_grammar_accepted cs d k h, ih]; rfl

theorem lengths_pos {cs : List Char} {ls : List (Rat × Nat)} (h : Lengths cs ls) (hz : ∀ x ∈ ls, x.1 ≠ 0) : ls ≠ [] ∧ ∀ x ∈ ls, 0 < x.1 := by
  induction h with
  | one cs d k h =>
    refine ⟨by simp, fun x hx => ?_⟩
    have := lengthText_nonneg h
    have := hz x hx
    simp only [List.mem_singleton] at hx; subst hx; grind
  | tied cs rest d k ls h _ ih =>
    refine ⟨by simp, fun x hx => ?_⟩
    have hd := lengthText_nonneg h
    have hx0 := hz x hx
    rcases List.mem_cons.1 hx with hx | hx
    · subst hx; grind
    · exact (ih (fun y hy => hz y (List.mem_cons_of_mem _ hy))).2 x hx

theorem dotted_eq (k : Nat) : (2 : Rat) - (1 / 2) ^ k = dotted k := by
  induction k with
  | zero => decide +kernel
  | succ k ih =>
    simp only [dotted, ← ih, Rat.pow_succ]
    have h2 : (1 / 2 : Rat) ^ k = 1 / 2 ^ k := by
      clear ih
      induction k with
      | zero => decide +kernel
      | succ k ih => rw [Rat.pow_succ, Rat.pow_succ, ih]; grind
    have h3 : (2 : Rat) ^ k ≠ 0 := by
      clear ih h2
      induction k with
      | zero => decide +kernel
      | succ k ih => rw [Rat.pow_succ]; grind
    rw [h2]; grind

theorem dotted_positive (k : Nat) : 0 < dotted k := by
  have : ∀ k, 1 ≤ dotted k := by
    intro k
    induction k with
    | zero => decide
    | succ k ih =>
      have h3 : (0 : Rat) < 2 ^ (k + 1) := by
        clear ih
        generalize k + 1 = k
        induction k with
        | zero => decide
        | succ k ih => rw [Rat.pow_succ]; grind
      have := rat_div_nonneg (by decide : (0 : Rat) ≤ 1) h3
      simp only [dotted]; grind
  have := this k
  grind

theorem tiedBeats_cons (x : Rat × Nat) (ls : List (Rat × Nat)) : tiedBeats (x :: ls) = 4 / x.1 * dotted x.2 + tiedBeats ls := by
  simp only [tiedBeats, List.map_cons, List.sum_cons]

theorem tied_toBeats (ls : List (Rat × Nat)) (hz : ∀ x ∈ ls, x.1 ≠ 0) : ∀ acc, Dur.toBeatsFrom acc (tiedComps ls) = .ok (acc + tiedBeats ls) := by
  induction ls with
  | nil => intro acc; simp [tiedComps, tiedBeats, Dur.toBeatsFrom, Rat.add_zero]
  | cons x ls ih =>
    intro acc
    have hx := hz x (List.mem_cons_self ..)
    have := ih (fun y hy => hz y (List.mem_cons_of_mem _ hy)) (acc + 4 / x.1 * dotted x.2)
    simp only [tiedComps, List.map_cons, Dur.toBeatsFrom, DurComp.toBeats, noteLengthBeats, if_neg hx, dotted_eq] at this ⊢
    rw [this, tiedBeats_cons]
    congr 1
    grind

theorem tied_total (ls : List (Rat × Nat)) (t : Rat) : total t (atoms (tiedComps ls)) = tiedBeats ls * 60000 / t := by
  induction ls with
  | nil => simp [tiedComps, tiedBeats, atoms, total]; grind
  | cons x ls ih =>
    simp only [tiedComps, List.map_cons, atoms, atomsOf, List.cons_append, List.nil_append, total, Atom.length] at ih ⊢
    rw [ih, tiedBeats_cons]
    grind

theorem tiedBeats_pos {ls : List (Rat × Nat)} (hne : ls ≠ []) (h : ∀ x ∈ ls, 0 < x.1) : 0 < tiedBeats ls := by
  induction ls with
  | nil => exact absurd rfl hne
  | cons x ls ih =>
    rw [tiedBeats_cons]
    have h4 : 0 < 4 / x.1 * dotted x.2 := by
      apply Rat.mul_pos
      · have := h x (List.mem_cons_self ..)
        rw [Rat.div_def]
        exact Rat.mul_pos (by decide) (Rat.inv_pos.2 this)
      · exact dotted_positive _
    cases ls with
    | nil => simp only [tiedBeats, List.map_nil, List.sum_nil]; grind
    | cons y ls =>
      have := ih (by simp) (fun z hz => h z (List.mem_cons_of_mem _ hz))
      grind

theorem value_pos {v : LispForm} {q : Rat} (h : Value v q) : 0 < q := by
  cases h with
  | number d h => rw [Rat.div_def]; exact Rat.mul_pos (by decide) (Rat.inv_pos.2 h)
  | text s ls h hz => have := lengths_pos h hz; exact tiedBeats_pos this.1 this.2

end Alda
