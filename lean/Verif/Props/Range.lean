import Verif.Lemmas.Frame
import Verif.Lemmas.Demo
import Verif.Spec.Range
/-!
C26: attribute values stay in range.
-/
namespace Alda
open Spec

/-- The update, if it is an attribute update, gives a value in range. -/
def RangeUpd : PartUpd → Prop
  | .tempo t => 0 < t
  | .metricModulation r => 0 < r
  | .volume v => Fraction v
  | .trackVolume v => Fraction v
  | .panning v => Fraction v
  | .quantization q => 0 ≤ q
  | _ => True

/-- The same for leaf updates. -/
def RangeLeaf : Leaf → Prop
  | .attr u => RangeUpd u
  | .globalAttr u => RangeUpd u
  | _ => True

mutual
/-- All updates inside a form are in range. -/
def FormOk : LispForm → Prop
  | .update l => RangeLeaf l
  | .quoted f => FormOk f
  | .list fs => FormsOk fs
  | _ => True
/-- The same for lists. -/
def FormsOk : List LispForm → Prop
  | [] => True
  | f :: fs => FormOk f ∧ FormsOk fs
end

mutual
theorem WrittenForm.ok : ∀ f, WrittenForm f → FormOk f
  | .sym _, _ => trivial
  | .num _, _ => trivial
  | .str _, _ => trivial
  | .quoted f, h => WrittenForm.ok f h
  | .list fs, h => WrittenForms.ok fs h
  | .update _, h => h.elim
  | .quoteForm, h | .fn _, h | .nil, h | .pitch _, h | .dur _, h => h.elim
theorem WrittenForms.ok : ∀ fs, WrittenForms fs → FormsOk fs
  | [], _ => trivial
  | f :: fs, h => ⟨WrittenForm.ok f h.1, WrittenForms.ok fs h.2⟩
end

/-! ### What the attribute functions return -/

theorem percentage_range {f : LispForm} {v : Rat} (h : percentage f = .ok v) : Fraction v := by
  cases f with
  | num x =>
    simp only [percentage] at h
    split at h
    · simp at h
    · simp only [Except.ok.injEq] at h; subst h; unfold Fraction; grind
  | _ => simp [percentage] at h

theorem positive_range {f : LispForm} {v : Rat} (h : positiveNumber f = .ok v) : 0 < v := by
  cases f with
  | num x =>
    simp only [positiveNumber] at h
    split at h
    · simp at h
    · simp only [Except.ok.injEq] at h; subst h; grind
  | _ => simp [positiveNumber] at h

theorem nonNegative_range {f : LispForm} {v : Rat} (h : nonNegativeNumber f = .ok v) : 0 ≤ v := by
  cases f with
  | num x =>
    simp only [nonNegativeNumber] at h
    split at h
    · simp at h
    · simp only [Except.ok.injEq] at h; subst h; grind
  | _ => simp [nonNegativeNumber] at h

theorem half_pow_le (k : Nat) : 0 < ((1 : Rat) / 2) ^ k ∧ ((1 : Rat) / 2) ^ k ≤ 1 := by
  induction k with
  | zero => rw [Rat.pow_zero]; decide +kernel
  | succ k ih => rw [Rat.pow_succ]; grind

theorem div_pos_rat {a b : Rat} (ha : 0 < a) (hb : 0 < b) : 0 < a / b := by
  rw [Rat.div_def]; exact Rat.mul_pos ha (Rat.inv_pos.2 hb)

theorem noteLengthBeats_pos {d q : Rat} {k : Nat} (hd : 0 ≤ d) (h : noteLengthBeats d k = some q) : 0 < q := by
  simp only [noteLengthBeats] at h
  split at h
  · simp at h
  · simp only [Option.some.injEq] at h; subst h
    have := half_pow_le k
    have h1 : 0 < 4 / d := div_pos_rat (by decide +kernel) (by grind)
    have h2 : 0 < 2 - (1 / 2 : Rat) ^ k := by grind
    exact Rat.mul_pos h1 h2

/-- Lengths with a non-negative denominator. -/
def LengthOk : DurComp → Prop
  | .length d _ => 0 ≤ d
  | _ => False

theorem toBeatsFrom_pos : ∀ (cs : List DurComp) (acc q : Rat), (∀ c ∈ cs, LengthOk c) → 0 ≤ acc →
    Dur.toBeatsFrom acc cs = .ok q → acc ≤ q ∧ (cs ≠ [] → 0 < q) := by
  intro cs
  induction cs with
  | nil => intro acc q _ h0 h; simp only [Dur.toBeatsFrom, BeatsResult.ok.injEq] at h; subst h; exact ⟨Rat.le_refl, fun h => absurd rfl h⟩
  | cons c cs ih =>
    intro acc q hc h0 h
    have h1 := hc c (List.mem_cons_self ..)
    cases c with
    | length d k =>
      simp only [Dur.toBeatsFrom, DurComp.toBeats] at h
      cases hb : noteLengthBeats d k with
      | none => rw [hb] at h; simp at h
      | some x =>
        rw [hb] at h
        have hx := noteLengthBeats_pos h1 hb
        obtain ⟨h2, _⟩ := ih (acc + x) q (fun c hc' => hc c (List.mem_cons_of_mem _ hc')) (by grind) h
        exact ⟨by grind, fun _ => by grind⟩
    | _ => exact h1.elim

theorem decimalVal_nonneg (w f : List Char) : 0 ≤ decimalVal w f := by
  unfold decimalVal
  have h1 : (0 : Rat) ≤ (digitsVal w : Rat) := Rat.natCast_nonneg
  have h2 : (0 : Rat) ≤ (digitsVal f : Rat) := Rat.natCast_nonneg
  have h3 : (0 : Rat) < (10 : Rat) ^ f.length := Rat.pow_pos (by decide +kernel)
  have h4 : 0 ≤ (digitsVal f : Rat) / 10 ^ f.length := by
    rw [Rat.div_def]; exact Rat.mul_nonneg h2 (Rat.le_of_lt (Rat.inv_pos.2 h3))
  grind

theorem noteLength_ok {cs : List Char} {c : DurComp} (h : noteLength cs = .ok c) : LengthOk c := by
  unfold noteLength at h
  split at h
  · simp at h
  · split at h
    · simp at h
    · simp only at h
      split at h
      · simp at h
      · simp only [Except.ok.injEq] at h; subst h; exact decimalVal_nonneg _ _

theorem noteLengths_ok : ∀ (ss : List (List Char)) (cs : List DurComp), noteLengths ss = .ok cs →
    (∀ c ∈ cs, LengthOk c) ∧ (ss ≠ [] → cs ≠ []) := by
  intro ss
  induction ss with
  | nil => intro cs h; simp only [noteLengths, Except.ok.injEq] at h; subst h; exact ⟨by simp, fun h => absurd rfl h⟩
  | cons s ss ih =>
    intro cs h
    simp only [noteLengths] at h
    split at h
    · simp at h
    · rename_i c hc
      split at h
      · simp at h
      · rename_i cs' hcs
        simp only [Except.ok.injEq] at h; subst h
        refine ⟨?_, fun _ => by simp⟩
        intro x hx
        rcases List.mem_cons.1 hx with rfl | hx
        · exact noteLength_ok hc
        · exact (ih cs' hcs).1 x hx

theorem splitChar_ne (sep : Char) (cs : List Char) : splitChar sep cs ≠ [] := by
  cases cs with
  | nil => simp [splitChar]
  | cons c cs =>
    simp only [splitChar]
    split
    · simp
    · split <;> simp

theorem numberBeats_pos {f : LispForm} {q : Rat} (h : numberBeats f = .ok q) : 0 < q := by
  simp only [numberBeats] at h
  split at h
  · simp at h
  · rename_i d hd
    have := positive_range hd
    simp only [finiteBeats] at h
    split at h
    · rename_i q' hq
      simp only [Except.ok.injEq] at h; subst h
      exact (toBeatsFrom_pos _ 0 _ (by intro c hc; simp only [List.mem_singleton] at hc; subst hc; exact Rat.le_of_lt this) Rat.le_refl hq).2 (by simp)
    · simp at h
    · simp at h

theorem stringBeats_pos {f : LispForm} {q : Rat} (h : stringBeats f = .ok q) : 0 < q := by
  simp only [stringBeats] at h
  split at h
  · simp at h
  · rename_i d hd
    have hok : (∀ c ∈ d, LengthOk c) ∧ d ≠ [] := by
      cases f with
      | str s =>
        simp only [lispDuration] at hd
        have := noteLengths_ok _ _ hd
        exact ⟨this.1, this.2 (splitChar_ne _ _)⟩
      | _ => simp [lispDuration] at hd
    simp only [finiteBeats] at h
    split at h
    · rename_i q' hq
      simp only [Except.ok.injEq] at h; subst h
      exact (toBeatsFrom_pos _ 0 _ hok.1 Rat.le_refl hq).2 hok.2
    · simp at h
    · simp at h

theorem attr1_range {α : Type} {conv : LispForm → Except Err α} {mk : α → PartUpd} (h : ∀ f v, conv f = .ok v → RangeUpd (mk v)) :
    ∀ args u, attr1 conv mk args = .ok u → RangeUpd u := by
  intro args u hu
  cases args with
  | nil => simp [attr1] at hu
  | cons a as =>
    simp only [attr1] at hu
    cases hc : conv a with
    | error e => rw [hc] at hu; simp [Except.map] at hu
    | ok v => rw [hc] at hu; simp only [Except.map, Except.ok.injEq] at hu; subst hu; exact h a v hc

theorem tempoFrom_range {beats : LispForm → Except Err Rat} (hb : ∀ f q, beats f = .ok q → 0 < q) :
    ∀ args u, tempoFrom beats args = .ok u → RangeUpd u := by
  intro args u hu
  unfold tempoFrom at hu
  split at hu
  · split at hu
    · simp at hu
    · rename_i q hq
      split at hu
      · simp at hu
      · rename_i bpm hbpm
        simp only [Except.ok.injEq] at hu; subst hu
        exact Rat.mul_pos (hb _ _ hq) (positive_range hbpm)
  · simp at hu

theorem modulationFrom_range {old new : LispForm → Except Err Rat} (ho : ∀ f q, old f = .ok q → 0 < q) (hn : ∀ f q, new f = .ok q → 0 < q) :
    ∀ args u, modulationFrom old new args = .ok u → RangeUpd u := by
  intro args u hu
  unfold modulationFrom at hu
  split at hu
  · split at hu
    · simp at hu
    · rename_i o ho'
      split at hu
      · simp at hu
      · rename_i n hn'
        split at hu
        · simp at hu
        · simp only [Except.ok.injEq] at hu; subst hu
          exact div_pos_rat (hn _ _ hn') (ho _ _ ho')
  · simp at hu

theorem octaveSym_range : ∀ args u, octaveSym args = .ok u → RangeUpd u := by
  intro args u hu
  unfold octaveSym at hu
  split at hu
  · split at hu
    · simp only [Except.ok.injEq] at hu; subst hu; trivial
    · split at hu
      · simp only [Except.ok.injEq] at hu; subst hu; trivial
      · simp at hu
  · simp at hu

/-- Every attribute function only makes updates in range. -/
theorem attributeFns_range : ∀ a ∈ attributeFns, ∀ sig ∈ a.2, ∀ args u, sig.2 args = .ok u → RangeUpd u := by
  have nb : ∀ f q, numberBeats f = .ok q → 0 < q := fun _ _ h => numberBeats_pos h
  have sb : ∀ f q, stringBeats f = .ok q → 0 < q := fun _ _ h => stringBeats_pos h
  intro a ha sig hsig
  simp only [attributeFns, List.mem_append, List.mem_cons, List.not_mem_nil, or_false, List.mem_map] at ha
  rcases ha with ((rfl | rfl | rfl | rfl | rfl | rfl) | ⟨d, _, rfl⟩) | (rfl | rfl | rfl | rfl | rfl | rfl | rfl | rfl) <;>
    simp only [List.mem_cons, List.not_mem_nil, or_false] at hsig
  · rcases hsig with rfl | rfl
    · exact attr1_range (fun _ _ _ => trivial)
    · exact octaveSym_range
  · rcases hsig with rfl | rfl | rfl
    · exact attr1_range (fun _ _ h => positive_range h)
    · exact tempoFrom_range nb
    · exact tempoFrom_range sb
  · rcases hsig with rfl | rfl | rfl | rfl
    · exact modulationFrom_range nb nb
    · exact modulationFrom_range nb sb
    · exact modulationFrom_range sb nb
    · exact modulationFrom_range sb sb
  · subst hsig; exact attr1_range (fun _ _ h => nonNegative_range h)
  · subst hsig; exact attr1_range (fun _ _ h => percentage_range h)
  · subst hsig; exact attr1_range (fun _ _ h => percentage_range h)
  · subst hsig; intro args u hu; simp only [Except.ok.injEq] at hu; subst hu; trivial
  · subst hsig; exact attr1_range (fun _ _ h => percentage_range h)
  · subst hsig; exact attr1_range (fun _ _ _ => trivial)
  · subst hsig; exact attr1_range (fun _ _ _ => trivial)
  · rcases hsig with rfl | rfl
    · exact attr1_range (fun _ _ _ => trivial)
    · exact attr1_range (fun _ _ _ => trivial)
  · rcases hsig with rfl | rfl
    · exact attr1_range (fun _ _ _ => trivial)
    · exact attr1_range (fun _ _ _ => trivial)
  · subst hsig; exact attr1_range (fun _ _ _ => trivial)
  · subst hsig; exact attr1_range (fun _ _ _ => trivial)
  · subst hsig; exact attr1_range (fun _ _ _ => trivial)

/-- An implementation maps forms in range to a form in range. -/
def ImplOk (f : List LispForm → Except Err LispForm) : Prop := ∀ args r, FormsOk args → f args = .ok r → FormOk r

theorem map_form {α : Type} {x : Except Err α} {f : α → LispForm} {r : LispForm} (h : x.map f = .ok r) (hf : ∀ a, FormOk (f a)) : FormOk r := by
  cases x with
  | error e => simp [Except.map] at h
  | ok v => simp only [Except.map, Except.ok.injEq] at h; subst h; exact hf v

theorem pitchFn_ok : ImplOk pitchFn := by
  intro args r _ h
  unfold pitchFn at h
  split at h
  · split at h
    · split at h
      · simp at h
      · split at h
        · simp only [Except.ok.injEq] at h; subst h; trivial
        · exact map_form h (fun _ => trivial)
    · simp at h
  · simp at h
  · simp at h

theorem plainFns_ok : ∀ fn ∈ plainFns, ∀ sig ∈ fn.2, ImplOk sig.impl := by
  intro fn hfn sig hsig args r hargs h
  simp only [plainFns, List.mem_cons, List.not_mem_nil, or_false] at hfn
  rcases hfn with rfl | rfl | rfl | rfl | rfl | rfl | rfl | rfl | rfl <;>
    simp only [List.mem_cons, List.not_mem_nil, or_false] at hsig
  · subst hsig; simp only [Except.ok.injEq] at h; subst h; exact hargs
  · subst hsig; simp only at h; split at h
    · exact map_form h (fun _ => trivial)
    · simp at h
  · rcases hsig with rfl | rfl
    · simp only at h; split at h
      · exact map_form h (fun _ => trivial)
      · simp at h
    · simp only at h; split at h
      · exact map_form h (fun _ => trivial)
      · simp at h
  · subst hsig; exact map_form h (fun _ => trivial)
  · subst hsig; simp only at h; split at h
    · exact map_form h (fun _ => trivial)
    · simp at h
  · subst hsig; exact pitchFn_ok args r hargs h
  · rcases hsig with rfl | rfl
    · simp only at h; split at h
      · simp only [Except.ok.injEq] at h; subst h; trivial
      · simp at h
    · simp only at h; split at h
      · simp only [Except.ok.injEq] at h; subst h; trivial
      · simp at h
  · rcases hsig with rfl | rfl
    · simp only [Except.ok.injEq] at h; subst h; trivial
    · simp only at h; split at h
      · simp only [Except.ok.injEq] at h; subst h; trivial
      · simp at h
  · subst hsig; simp only at h; split at h
    · simp only [Except.ok.injEq] at h; subst h; trivial
    · simp at h
    · simp at h

theorem environment_ok : ∀ fn ∈ environment, ∀ sig ∈ fn.2, ImplOk sig.impl := by
  intro fn hfn sig hsig
  rcases List.mem_append.1 hfn with hfn | hfn
  · obtain ⟨a, ha, hfn⟩ := List.mem_flatMap.1 hfn
    simp only [defattribute, List.mem_flatMap, List.mem_cons, List.not_mem_nil, or_false] at hfn
    obtain ⟨name, _, hfn⟩ := hfn
    have key : ∀ mk : PartUpd → Leaf, (∀ u, RangeUpd u → RangeLeaf (mk u)) → sig ∈ a.2.map (attrSignature mk) → ImplOk sig.impl := by
      intro mk hmk hsig
      obtain ⟨sg, hsg, rfl⟩ := List.mem_map.1 hsig
      intro args r _ h
      simp only [attrSignature] at h
      cases hu : sg.2 args with
      | error e => rw [hu] at h; simp [Except.map] at h
      | ok u =>
        rw [hu] at h; simp only [Except.map, Except.ok.injEq] at h; subst h
        exact hmk u (attributeFns_range a ha sg hsg args u hu)
    rcases hfn with rfl | rfl
    · exact key .attr (fun _ h => h) hsig
    · exact key .globalAttr (fun _ h => h) hsig
  · exact plainFns_ok fn hfn sig hsig

theorem assoc_lookup_mem {β : Type} : ∀ (l : List (String × β)) (n : String) (v : β), l.lookup n = some v → (n, v) ∈ l := by
  intro l
  induction l with
  | nil => intro n v h; simp at h
  | cons x l ih =>
    intro n v h
    obtain ⟨m, w⟩ := x
    simp only [List.lookup_cons] at h
    by_cases hm : n = m
    · subst hm; simp only [beq_self_eq_true, Option.some.injEq] at h; subst h; exact List.mem_cons_self ..
    · have : (n == m) = false := by simpa using hm
      rw [this] at h; exact List.mem_cons_of_mem _ (ih n v h)

theorem lookupFn_ok {n : String} {sigs : List Signature} (h : lookupFn n = some sigs) : ∀ sig ∈ sigs, ImplOk sig.impl := by
  have := assoc_lookup_mem _ _ _ h
  exact environment_ok (n, sigs) (List.mem_reverse.1 this)

theorem operate_ok : ∀ (sigs : List Signature), (∀ sig ∈ sigs, ImplOk sig.impl) → ImplOk (operate sigs) := by
  intro sigs
  induction sigs with
  | nil => intro _ args r _ h; simp [operate] at h
  | cons s ss ih =>
    intro hs args r hargs h
    simp only [operate] at h
    split at h
    · exact hs s (List.mem_cons_self ..) args r hargs h
    · exact ih (fun sig hsig => hs sig (List.mem_cons_of_mem _ hsig)) args r hargs h

mutual
theorem eval_ok : ∀ (f r : LispForm), FormOk f → f.eval = .ok r → FormOk r
  | .quoteForm, r, _, h => by simp only [LispForm.eval, Except.ok.injEq] at h; subst h; trivial
  | .fn _, r, _, h => by simp only [LispForm.eval, Except.ok.injEq] at h; subst h; trivial
  | .nil, r, _, h => by simp only [LispForm.eval, Except.ok.injEq] at h; subst h; trivial
  | .quoted f, r, hf, h => by simp only [LispForm.eval, Except.ok.injEq] at h; subst h; exact hf
  | .sym n, r, _, h => by
    simp only [LispForm.eval, evalSym] at h
    split at h
    · simp only [Except.ok.injEq] at h; subst h; trivial
    · split at h
      · simp only [Except.ok.injEq] at h; subst h; trivial
      · simp at h
  | .num _, r, _, h => by simp only [LispForm.eval, Except.ok.injEq] at h; subst h; trivial
  | .str _, r, _, h => by simp only [LispForm.eval, Except.ok.injEq] at h; subst h; trivial
  | .update _, r, hf, h => by simp only [LispForm.eval, Except.ok.injEq] at h; subst h; exact hf
  | .pitch _, r, _, h => by simp only [LispForm.eval, Except.ok.injEq] at h; subst h; trivial
  | .dur _, r, _, h => by simp only [LispForm.eval, Except.ok.injEq] at h; subst h; trivial
  | .list [], r, _, h => by simp [LispForm.eval] at h
  | .list (op :: args), r, hf, h => by
    simp only [LispForm.eval] at h
    split at h
    · simp at h
    · split at h
      · simp at h
      · rename_i a; simp only [Except.ok.injEq] at h; subst h; exact hf.2.1
      · simp at h
    · split at h
      · simp at h
      · rename_i vs hvs
        split at h
        · rename_i sigs hsigs
          exact operate_ok sigs (lookupFn_ok hsigs) vs r (evalArgs_ok args vs hf.2 hvs) h
        · simp at h
    · split at h
      · simp at h
      · simp at h
theorem evalArgs_ok : ∀ (fs vs : List LispForm), FormsOk fs → LispForm.evalArgs fs = .ok vs → FormsOk vs
  | [], vs, _, h => by simp only [LispForm.evalArgs, Except.ok.injEq] at h; subst h; trivial
  | f :: fs, vs, hf, h => by
    simp only [LispForm.evalArgs] at h
    split at h
    · simp at h
    · rename_i v hv
      split at h
      · simp at h
      · rename_i ws hws
        simp only [Except.ok.injEq] at h; subst h
        exact ⟨eval_ok f v hf.1 hv, evalArgs_ok fs ws hf.2 hws⟩
end

theorem lispUpdate_range {es : List LispForm} {l : Leaf} (he : FormsOk es) (h : lispUpdate es = .ok (some l)) : RangeLeaf l := by
  simp only [lispUpdate] at h
  split at h
  · simp at h
  · rename_i u hu
    simp only [Except.ok.injEq, Option.some.injEq] at h; subst h
    exact eval_ok (.list es) _ he hu
  · simp at h

mutual
theorem Written.leaves : ∀ e, Written e → AllLeaves RangeLeaf e
  | .leaf (.note ..), _ => trivial
  | .leaf (.rest ..), _ => trivial
  | .leaf (.attr u), h => by cases u <;> first | trivial | exact (h : False).elim
  | .leaf (.globalAttr u), h => (h : False).elim
  | .lisp es, h => fun _ hl => lispUpdate_range (WrittenForms.ok es h) hl
  | .chord es, h => WrittenL.leaves es h
  | .cram es _, h => WrittenL.leaves es h
  | .seq es, h => WrittenL.leaves es h
  | .rep e _, h => Written.leaves e h
  | .onReps _ e, h => Written.leaves e h
  | .varDef _ es, h => WrittenL.leaves es h
  | .lispNil, _ | .barline, _ | .voice _, _ | .voiceEnd, _ | .marker _, _ | .atMarker _, _ | .varRef _, _ | .partDecl _ _, _ => trivial
theorem WrittenL.leaves : ∀ es, WrittenL es → AllLeavesL RangeLeaf es
  | [], _ => trivial
  | e :: es, h => ⟨Written.leaves e h.1, WrittenL.leaves es h.2⟩
end

/-! ### The invariant -/

theorem dynamicVolume_range (m : String) : Fraction (dynamicVolume m) := by
  unfold dynamicVolume
  cases h : dynamicVolumes.lookup m with
  | none => unfold Fraction; decide +kernel
  | some v =>
    have := assoc_lookup_mem _ _ _ h
    have key : ∀ x ∈ dynamicVolumes, 0 ≤ x.2 ∧ x.2 ≤ 1 := by decide +kernel
    exact key _ this

theorem range_cell : CellInv RangeLeaf InRange where
  upd := by
    intro u g p q hL h hu
    replace hL : RangeUpd u := hL.elim (fun h => h.2) (fun h => h.2)
    obtain ⟨h1, h2, h3, h4, h5⟩ := h
    cases u with
    | midiChannel n =>
      simp only [updatePart] at hu
      split at hu
      · simp at hu
      · simp only [Except.ok.injEq] at hu; subst hu; exact ⟨h1, h2, h3, h4, h5⟩
    | tempo t =>
      have hL : 0 < t := hL
      cases g <;> simp [updatePart, Part.recordTempoValue] at hu <;> subst hu <;> exact ⟨h1, h2, h3, hL, h5⟩
    | metricModulation t =>
      have : 0 < p.tempo * t := Rat.mul_pos h4 hL
      cases g <;> simp [updatePart, Part.recordTempoValue] at hu <;> subst hu <;> exact ⟨h1, h2, h3, this, h5⟩
    | volume v => simp only [updatePart, Except.ok.injEq] at hu; subst hu; exact ⟨hL, h2, h3, h4, h5⟩
    | trackVolume v => simp only [updatePart, Except.ok.injEq] at hu; subst hu; exact ⟨h1, hL, h3, h4, h5⟩
    | panning v => simp only [updatePart, Except.ok.injEq] at hu; subst hu; exact ⟨h1, h2, hL, h4, h5⟩
    | quantization v => simp only [updatePart, Except.ok.injEq] at hu; subst hu; exact ⟨h1, h2, h3, h4, hL⟩
    | dynamic m => simp only [updatePart, Except.ok.injEq] at hu; subst hu; exact ⟨dynamicVolume_range m, h2, h3, h4, h5⟩
    | _ => simp only [updatePart, Except.ok.injEq] at hu; subst hu; exact ⟨h1, h2, h3, h4, h5⟩
  override := fun p o h => h
  timing := fun p _ _ _ _ _ h => h
  chan := fun s p q a ch _ _ h _ => h
  struct := fun p _ _ _ h => h
  new := by
    intro p _ h1 h2 h3 h4 h5 _ _ _ _ _ _ _
    unfold InRange Fraction
    rw [h1, h2, h3, h4, h5]; decide +kernel

/-- The invariant: cells, recorded changes and notes are in range. -/
structure RangeInv (s : Score) : Prop where
  good : Good RangeLeaf True s
  globals : GlobalsOk RangeLeaf s
  cells : ∀ i < s.next, InRange (s.heap i)
  notes : ∀ e ∈ s.events, Fraction e.volume ∧ Fraction e.trackVolume ∧ Fraction e.panning

theorem Step.rangeInv {s t : Score} (h : Step RangeLeaf True s t) (r : RangeInv s) : RangeInv t := by
  refine ⟨h.good r.good, h.globalsOk r.globals, range_cell.step h r.good.wf r.globals r.cells, ?_⟩
  rcases h.notes with ⟨he, _⟩ | ⟨id, ch, note, d, a, hid, _, _, _, _, ht⟩
  · rw [he]; exact r.notes
  · intro e he
    rw [ht, emitted_events] at he
    rcases List.mem_append.1 he with he | he
    · exact r.notes e he
    · simp only [List.mem_singleton] at he; subst he
      obtain ⟨h1, h2, h3, _, _⟩ := r.cells id (r.good.wf.cur_lt id hid)
      exact ⟨h1, h2, h3⟩

/-- C26: for every program that can be written, every part of the score and every active part has volume, track volume and panning between 0 and 1, a positive tempo
and a quantization that is not negative; and every note has volume, track volume and panning between 0 and 1. -/
theorem c26_in_range (program : List Upd) (hw : WrittenL program) (s : Score) (hs : s = (update program newScore).s) :
    (∀ q, q ∈ s.parts ∨ q ∈ s.current → InRange (s.heap q)) ∧
    ∀ e ∈ s.events, Fraction e.volume ∧ Fraction e.trackVolume ∧ Fraction e.panning := by
  subst hs
  have h := update_steps (D := True) program newScore (WrittenL.leaves program hw) (Or.inl trivial) (newScore_good _ _)
  have r : RangeInv (update program newScore).s := h.invariant (fun _ _ h => h.rangeInv)
    ⟨newScore_good _ _, fun o us h => by simp [newScore] at h, by simp [newScore], by simp [newScore]⟩
  exact ⟨fun q hq => r.cells q (hq.elim (r.good.wf.parts_lt q) (r.good.wf.cur_lt q)), r.notes⟩

/-- C26: no inline lisp expression makes an attribute change that is out of range. -/
theorem c26_lisp (fs : List LispForm) (hw : WrittenForms fs) (l : Leaf) (h : lispUpdate fs = .ok (some l)) : RangeLeaf l :=
  lispUpdate_range (WrittenForms.ok fs hw) h

/-- A program with lisp in it that meets the hypothesis: `piano: (vol 75) c (tempo "4." 60)`. -/
def demoLisp : List Upd :=
  [.partDecl ["piano"] "", .lisp [.sym "vol", .num 75], .leaf (.note (.letter .C none) [] false), .lisp [.sym "tempo", .str "4.", .num 60]]

example : WrittenL demoLisp := ⟨trivial, ⟨trivial, trivial, trivial⟩, trivial, ⟨trivial, trivial, trivial, trivial⟩, trivial⟩
example : (update demoLisp newScore).err = none ∧ (update demoLisp newScore).s.events.map (·.volume) = [3 / 4] ∧
    (update demoLisp newScore).s.parts.map (fun q => ((update demoLisp newScore).s.heap q).tempo) = [90] := by decide +kernel
example : (lispUpdate [.sym "vol", .num 101]).toBool = false := by decide +kernel

/-- C26: a MIDI channel that is set by lisp is a number from 0 to 15; other numbers are refused. -/
theorem c26_channel (q : Rat) (n : Int) : lispUpdate [.sym "midi-channel", .num q] = .ok (some (.attr (.midiChannel n))) ↔ q = n ∧ 0 ≤ n ∧ n ≤ 15 := by
  have h1 : lookupFn "midi-channel" = some [attrSignature .attr ([.number], attr1 (integerInRange · 0 15) .midiChannel)] := by with_unfolding_all rfl
  have h2 : evalSym "midi-channel" = .ok (.fn "midi-channel") := by simp only [evalSym, h1]; rfl
  have h3 : argumentsMatchSignature [.num q] [.number] = true := by with_unfolding_all rfl
  simp only [lispUpdate, LispForm.eval, h2, LispForm.evalArgs, h1, operate, attrSignature, h3, if_true, attr1, integerInRange, integer]
  by_cases hq : q.den = 1 ∧ InInt32 q.num
  · rw [if_pos hq]
    have hn : q = (q.num : Rat) := by
      refine Rat.ext ?_ ?_ <;> simp [hq.1]
    by_cases hr : q.num < 0 ∨ q.num > 15
    · simp only [hr, if_true, Except.map]
      constructor
      · intro h; simp at h
      · rintro ⟨rfl, h1, h2⟩
        simp at hr; omega
    · simp only [hr, if_false, Except.map, Except.ok.injEq, Option.some.injEq, Leaf.attr.injEq, PartUpd.midiChannel.injEq]
      constructor
      · rintro rfl; exact ⟨hn, by omega, by omega⟩
      · rintro ⟨rfl, h1, h2⟩; simp
  · rw [if_neg hq]
    simp only [Except.map]
    constructor
    · intro h; simp at h
    · rintro ⟨rfl, h1, h2⟩
      exact absurd ⟨by simp, by simp [InInt32]; omega⟩ hq

end Alda
