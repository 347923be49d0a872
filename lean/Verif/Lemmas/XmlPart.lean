import Verif.Lemmas.XmlLine
/-!
The operations of the importer on a part whose current voice is flat.
-/
namespace Alda
namespace Importer
open Spec

section
variable {α β : Type} [DecidableEq α]

theorem lookup_assign_self (k : α) (b : β) : ∀ l : List (α × β), (assign k b l).lookup k = some b := by
  intro l
  induction l with
  | nil => simp [assign]
  | cons x l ih =>
    simp only [assign]
    split
    · simp
    · rename_i h
      rw [List.lookup_cons]
      have : (k == x.1) = false := by simpa [beq_eq_false_iff_ne] using fun e => h e.symm
      rw [this]; exact ih

theorem lookup_assign_ne {k k' : α} (h : k' ≠ k) (b : β) : ∀ l : List (α × β), (assign k b l).lookup k' = l.lookup k' := by
  intro l
  have hb : (k' == k) = false := by simpa [beq_eq_false_iff_ne] using h
  induction l with
  | nil => simp only [assign, List.lookup_cons, hb]
  | cons x l ih =>
    obtain ⟨a, y⟩ := x
    simp only [assign]
    split
    · rename_i e
      have e : a = k := e
      subst e
      rw [List.lookup_cons, List.lookup_cons, hb]
    · rw [List.lookup_cons, List.lookup_cons, ih]

theorem assign_assign (k : α) (a b : β) : ∀ l : List (α × β), assign k b (assign k a l) = assign k b l := by
  intro l
  induction l with
  | nil => simp [assign]
  | cons x l ih =>
    simp only [assign]
    split
    · simp [assign]
    · rename_i h
      simp only [assign, if_neg h, ih]

theorem keys_assign {k : α} (b : β) : ∀ l : List (α × β), k ∈ l.map (·.1) → (assign k b l).map (·.1) = l.map (·.1) := by
  intro l
  induction l with
  | nil => intro h; simp at h
  | cons x l ih =>
    intro h
    simp only [assign]
    split
    · rename_i e; simp [e]
    · rename_i e
      simp only [List.map_cons, List.mem_cons] at h ⊢
      rw [ih (h.resolve_left (fun h => e h.symm))]

theorem lookup_some_of_key {k : α} : ∀ l : List (α × β), k ∈ l.map (·.1) → ∃ b, l.lookup k = some b := by
  intro l
  induction l with
  | nil => intro h; simp at h
  | cons x l ih =>
    intro h
    obtain ⟨a, y⟩ := x
    rw [List.lookup_cons]
    by_cases e : k = a
    · subst e; exact ⟨y, by simp⟩
    · have : (k == a) = false := by simpa [beq_eq_false_iff_ne] using e
      rw [this]
      simp only [List.map_cons, List.mem_cons] at h
      exact ih (h.resolve_left e)
end

/-- Changing a voice and the part's beats. -/
def XPart.put (p : XPart) (n : Int) (v : Voice) (b : Rat) : XPart := { p with voices := assign n v p.voices, beats := b }

section
variable {p : XPart} {n : Int} {v : Voice}

theorem voice_at (hc : p.cur = .at n) (hv : p.voices.lookup n = some v) : p.voice = .ok v := by
  unfold XPart.voice; rw [hc]; simp only [hv]

theorem setVoice_at (hc : p.cur = .at n) (w : Voice) : p.setVoice w = p.put n w p.beats := by
  obtain ⟨_, _, _, _, _, cur, _, _, _⟩ := p
  simp only at hc; subst hc
  rfl

theorem put_voice (hc : p.cur = .at n) (w : Voice) (b : Rat) : (p.put n w b).voice = .ok w :=
  voice_at hc (lookup_assign_self ..)

theorem put_put (w w' : Voice) (b b' : Rat) : (p.put n w b).put n w' b' = p.put n w' b' := by
  unfold XPart.put; simp only [assign_assign]

theorem recount_put (hc : p.cur = .at n) (w : Voice) (b : Rat) : (p.put n w b).recount =
    .ok (p.put n { w with beats := roundIfCloseEnough (beatsSum w.events) } (roundIfCloseEnough (beatsSum w.events))) := by
  unfold XPart.recount
  rw [put_voice hc]
  simp only [bind, Except.bind, pure, Except.pure]
  rw [setVoice_at (p := p.put n w b) hc, put_put]; rfl

theorem recount_at (hc : p.cur = .at n) (hv : p.voices.lookup n = some v) : p.recount =
    .ok (p.put n { v with beats := roundIfCloseEnough (beatsSum v.events) } (roundIfCloseEnough (beatsSum v.events))) := by
  unfold XPart.recount
  rw [voice_at hc hv]
  simp only [bind, Except.bind, pure, Except.pure]
  rw [setVoice_at hc]; rfl

/-- The part with other events in the current voice, after counting the beats. -/
def XPart.withEvents (p : XPart) (n : Int) (v : Voice) (es : List Upd) : XPart :=
  p.put n { v with events := es, beats := roundIfCloseEnough (beatsSum es) } (roundIfCloseEnough (beatsSum es))

theorem modifyAt_root (hc : p.cur = .at n) (hv : p.voices.lookup n = some v) (f : Upd → Upd) (path : List Nat) (es : List Upd)
    (hf : modifyPath f path [.seq v.events] = [.seq es]) : p.modifyAt path f = .ok (p.withEvents n v es) := by
  unfold XPart.modifyAt
  rw [voice_at hc hv]
  simp only [bind, Except.bind]
  rw [hf]
  simp only
  rw [setVoice_at hc, recount_put hc]; rfl

theorem importInto_flat (hc : p.cur = .at n) (hv : p.voices.lookup n = some v) (h : FlatL v.events) : p.importInto = .ok (.seq v.events, [0]) := by
  unfold XPart.importInto XPart.findLast
  rw [voice_at hc hv]
  simp only [bind, Except.bind, pure, Except.pure]
  rw [flat_importInto h]

theorem append_flat (hc : p.cur = .at n) (hv : p.voices.lookup n = some v) (h : FlatL v.events) (new : List Upd) :
    p.append new = .ok (p.withEvents n v (v.events ++ new)) := by
  unfold XPart.append
  rw [importInto_flat hc hv h]
  simp only [bind, Except.bind]
  exact modifyAt_root hc hv _ _ _ rfl

theorem setAll_flat (hc : p.cur = .at n) (hv : p.voices.lookup n = some v) (h : FlatL v.events) (new : List Upd) :
    p.setAll new = .ok (p.withEvents n v new) := by
  unfold XPart.setAll
  rw [importInto_flat hc hv h]
  simp only [bind, Except.bind]
  exact modifyAt_root hc hv _ _ _ rfl

theorem openUpdates_flat (hc : p.cur = .at n) (hv : p.voices.lookup n = some v) (h : FlatL v.events) : p.openUpdates = .ok v.events := by
  unfold XPart.openUpdates
  rw [importInto_flat hc hv h]
  rfl

/-- A barline goes into the last duration, or after the last event. -/
theorem addBarline_flat (hc : p.cur = .at n) (hv : p.voices.lookup n = some v) (h : FlatL v.events) :
    ∃ es, addBarline p = .ok (p.withEvents n v es) ∧ FlatL es ∧ beatsSum es = beatsSum v.events ∧ ∀ K (q : Pen), q.run K es = q.run K v.events := by
  unfold addBarline
  rw [openUpdates_flat hc hv h]
  simp only [bind, Except.bind]
  cases ht : tryBarlineLast v.events with
  | none =>
    simp only
    refine ⟨_, append_flat hc hv h _, h.append (FlatL.one .bar .bar), ?_, fun K q => ?_⟩
    · rw [beatsSum_append]; simp [beatsSum, beatsUpd, Rat.add_zero]
    · rw [Pen.run_append]
      simp [Pen.run, Pen.step, Pen.member, beatsUpd, Rat.add_zero]
  | some es =>
    simp only
    obtain ⟨h1, h2, h3⟩ := tryBarlineLast_flat _ _ h ht
    exact ⟨es, setAll_flat hc hv h es, h1, h2, h3⟩
end

/-! ### Beats on the grid -/

theorem round_grid {e D : Nat} (h1 : 1 ≤ D) (h2 : D ≤ 24) : roundIfCloseEnough ((e : Rat) / D) = (e : Rat) / D := by
  refine roundIf_eq ?_
  intro m hm
  obtain ⟨a, b⟩ := abs_lt_iff hm
  have hD : (0 : Rat) < D := by exact_mod_cast h1
  have hD' : (D : Rat) ≤ 24 := by exact_mod_cast h2
  have hx : (e : Rat) / D * D = e := by grind
  have h3 : (e : Rat) - m * D = ((e : Rat) / D - m) * D := by grind
  have h4 : ((e : Rat) / D - m) * D < 1 := by
    have := Rat.mul_lt_mul_of_pos_right b hD
    grind
  have h5 : -1 < ((e : Rat) / D - m) * D := by
    have := Rat.mul_lt_mul_of_pos_right a hD
    grind
  rw [← h3] at h4 h5
  have h6 : (e : Int) - m * D = 0 := by
    have a1 : ((e : Int) - m * D : Int) < 1 := by exact_mod_cast h4
    have a2 : (-1 : Int) < ((e : Int) - m * D : Int) := by
      have : ((-1 : Int) : Rat) < (((e : Int) - m * D : Int) : Rat) := by push_cast; exact h5
      exact Rat.intCast_lt_intCast.1 this
    omega
  have h7 : (e : Rat) - m * D = 0 := by exact_mod_cast h6
  have : (e : Rat) = m * D := by grind
  grind

theorem length_valid {x q : Rat} {k : Nat} (h : Dur.toBeats [.length x k] = .ok q) (hq : 0 < q) : Dur.valid [.length x k] = true := by
  simp only [Dur.toBeats, Dur.toBeatsFrom, DurComp.toBeats, noteLengthBeats] at h
  by_cases hx : x = 0
  · rw [if_pos hx] at h; simp at h
  · rw [if_neg hx] at h
    simp only [BeatsResult.ok.injEq] at h
    have hk : (0 : Rat) < 2 - (1 / 2) ^ k := by
      have : ∀ k : Nat, (0 : Rat) < (1 / 2) ^ k ∧ (1 / 2 : Rat) ^ k ≤ 1 := by
        intro k
        induction k with
        | zero => exact ⟨by decide +kernel, by decide +kernel⟩
        | succ k ih => rw [Rat.pow_succ]; grind
      grind
    have : (0 : Rat) < x := by
      by_cases hn : 0 < x
      · exact hn
      · exfalso
        have h1 : (0 : Rat) < 4 / x * (2 - (1 / 2) ^ k) := by grind
        have h2 : 4 / x ≤ 0 := by
          have : (0 : Rat) < -x := by grind
          have h3 : (0 : Rat) < 4 / (-x) := (Rat.lt_div_iff this).2 (by rw [Rat.zero_mul]; decide)
          have : 4 / (-x) = -(4 / x) := by grind
          grind
        have := Rat.mul_le_mul_of_nonneg_right h2 (Rat.le_of_lt hk)
        grind
    simp [Dur.valid, Dur.validList, DurComp.valid, this]

theorem validList_iff (d : List DurComp) : Dur.validList d = true ↔ ∀ c ∈ d, c.valid = true := by
  induction d with
  | nil => simp [Dur.validList]
  | cons c d ih => simp [Dur.validList, ih]

theorem decomposed_valid (picks : List Rat) : (decomposed picks).valid = true := by
  unfold decomposed
  split
  · rename_i d hd
    have : ∀ ns : List Rat, (∀ n ∈ ns, n ∈ normalLengths) → dottedOf picks ns = some d → d ∈ normalLengths := by
      intro ns
      induction ns with
      | nil => intro _ h; simp [dottedOf] at h
      | cons a ns ih =>
        intro hm h
        cases ns with
        | nil => simp [dottedOf] at h
        | cons b ns =>
          simp only [dottedOf] at h
          split at h
          · simp only [Option.some.injEq] at h; subst h; exact hm _ (List.mem_cons_self ..)
          · exact ih (fun n hn => hm n (List.mem_cons_of_mem _ hn)) h
    split at hd
    · have := (normal_pos (this _ (fun _ h => h) hd)).1
      have : (0 : Rat) < d := by grind
      simp [Dur.valid, Dur.validList, DurComp.valid, this]
    · simp at hd
  · unfold Dur.valid
    rw [validList_iff]
    intro c hc
    obtain ⟨n, hn, hc⟩ := List.mem_flatMap.1 hc
    have := (List.mem_replicate.1 hc).2
    subst this
    have := (normal_pos hn).1
    have : (0 : Rat) < n := by grind
    simp [DurComp.valid, this]

theorem idiomatic_valid {x : Rat} {k : Nat} {d : Dur} {q : Rat} (h : idiomaticDuration x k = some d) (hd : d.toBeats = .ok q) (hq : 0 < q) : d.valid = true := by
  unfold idiomaticDuration at h
  simp only at h
  split at h
  · split at h
    · simp at h
    · split at h
      · simp only [Option.some.injEq] at h; subst h; exact decomposed_valid _
      · simp only [Option.some.injEq] at h; subst h; exact length_valid hd hq
  · simp only [Option.some.injEq] at h; subst h; exact length_valid hd hq

theorem translate_valid {D : Int} {k : Nat} {t : Rat} {d : Dur} {q : Rat} (h : translateDuration D k t = some d) (hd : d.toBeats = .ok q) (hq : 0 < q) : d.valid = true := by
  unfold translateDuration at h
  split at h
  · simp at h
  · exact idiomatic_valid h hd hq

/-- Nothing but note lengths. -/
def OnlyLengths (d : Dur) : Prop := ∀ c ∈ d, ∃ (q : Rat) (k : Nat), c = .length q k ∧ 0 ≤ q ∧ Counting k

theorem OnlyLengths.noBar {d : Dur} (h : OnlyLengths d) : DurComp.barline ∉ d := by
  intro hm
  obtain ⟨_, _, e, _⟩ := h _ hm
  cases e

theorem OnlyLengths.neat {d : Dur} (h : OnlyLengths d) : NeatDur d := by
  refine ⟨fun c hc => .inr (h c hc), fun hh => ?_⟩
  cases d with
  | nil => simp at hh
  | cons c d =>
    simp only [List.head?_cons, Option.some.injEq] at hh
    exact h.noBar (hh ▸ List.mem_cons_self ..)

theorem OnlyLengths.note {d : Dur} (h : OnlyLengths d) {a : Option (List Accidental)} (ha : a ≠ some []) (sl : Bool) : NeatNote a d sl :=
  ⟨ha, h.neat, fun _ hl => h.noBar (List.mem_of_getLast? hl)⟩

theorem idiomatic_lengths {x : Rat} {k : Nat} {d : Dur} (h : idiomaticDuration x k = some d) (hv : d.valid = true) (hk : k ≤ 5) : OnlyLengths d := by
  have pos : ∀ {y : Rat} {j : Nat}, DurComp.length y j ∈ d → 0 ≤ y := by
    intro y j hm
    unfold Dur.valid at hv
    have := (validList_iff d).1 hv _ hm
    simp only [DurComp.valid, decide_eq_true_eq] at this
    grind
  have key : ∀ c ∈ d, ∃ (q : Rat) (k : Nat), c = .length q k ∧ k ≤ 5 := by
    unfold idiomaticDuration at h
    simp only at h
    split at h
    · rename_i h0
      split at h
      · simp at h
      · split at h
        · simp only [Option.some.injEq] at h; subst h
          unfold decomposed
          split
          · intro c hc; simp only [List.mem_singleton] at hc; exact ⟨_, 1, hc, by omega⟩
          · intro c hc
            obtain ⟨n, hn, hc⟩ := List.mem_flatMap.1 hc
            exact ⟨n, 0, (List.mem_replicate.1 hc).2, by omega⟩
        · simp only [Option.some.injEq] at h; subst h
          intro c hc; simp only [List.mem_singleton] at hc; exact ⟨_, 0, hc, by omega⟩
    · simp only [Option.some.injEq] at h; subst h
      intro c hc; simp only [List.mem_singleton] at hc; exact ⟨_, k, hc, hk⟩
  intro c hc
  obtain ⟨q, j, e, hj⟩ := key c hc
  subst e
  exact ⟨q, j, rfl, pos hc, by unfold Counting; omega⟩

theorem translate_lengths {D : Int} {k : Nat} {t : Rat} {d : Dur} (h : translateDuration D k t = some d) (hv : d.valid = true) (hk : k ≤ 5) : OnlyLengths d := by
  unfold translateDuration at h
  split at h
  · simp at h
  · exact idiomatic_lengths h hv hk

theorem beats_exact {D t : Nat} (dots : Nat) (h1 : 1 ≤ D) (h2 : D ≤ 24) (ht : 0 < t) (ht' : t ≤ 40000 * D) (hd : dots ≤ 5) :
    ∃ d, translateDuration D dots t = some d ∧ Lasts d ((t : Rat) / D) ∧ OnlyLengths d := by
  have hpos : (0 : Rat) < (t : Rat) / D := by
    have a : (0 : Rat) < t := by exact_mod_cast ht
    have b : (0 : Rat) < D := by exact_mod_cast h1
    exact (Rat.lt_div_iff b).2 (by rw [Rat.zero_mul]; exact a)
  by_cases h : dots = 0
  · subst h
    obtain ⟨d, e1, e2⟩ := plain_beats D t (by omega) (by omega) (by omega) (by omega)
    rw [Rat.intCast_natCast] at e1
    rw [Rat.intCast_natCast, Rat.intCast_natCast] at e2
    exact ⟨d, e1, ⟨e2, hpos, translate_valid e1 e2 hpos⟩, translate_lengths e1 (translate_valid e1 e2 hpos) hd⟩
  · obtain ⟨d, e1, e2⟩ := dotted_beats D t dots (by omega) hd (by omega) (by omega) (by omega) (by omega)
    rw [Rat.intCast_natCast] at e1
    rw [Rat.intCast_natCast, Rat.intCast_natCast] at e2
    exact ⟨d, e1, ⟨e2, hpos, translate_valid e1 e2 hpos⟩, translate_lengths e1 (translate_valid e1 e2 hpos) hd⟩

/-- The rest that fills a gap. -/
theorem gap_exact {D a b : Nat} (h1 : 1 ≤ D) (h2 : D ≤ 24) (hab : a < b) (hb : b ≤ a + 40000 * D) :
    ∃ d, idiomatic (4 / ((b : Rat) / D - (a : Rat) / D)) 0 = .ok d ∧ Lasts d ((b : Rat) / D - (a : Rat) / D) ∧ OnlyLengths d := by
  obtain ⟨d, e1, e2, e3⟩ := beats_exact (D := D) (t := b - a) 0 h1 h2 (by omega) (by omega) (by omega)
  have hD : (0 : Rat) < D := by exact_mod_cast h1
  have hc : ((b - a : Nat) : Rat) = (b : Rat) - a := by
    have h : ((b - a : Nat) : Int) = (b : Int) - a := by omega
    have h' : (((b - a : Nat) : Int) : Rat) = (((b : Int) - a : Int) : Rat) := by rw [h]
    rw [Rat.intCast_natCast] at h'
    rw [h', Rat.intCast_sub, Rat.intCast_natCast, Rat.intCast_natCast]
  have ht : (0 : Rat) < (b : Rat) - a := by
    have : ((0 : Nat) : Rat) < ((b - a : Nat) : Rat) := by exact_mod_cast (by omega : 0 < b - a)
    rw [hc] at this; exact_mod_cast this
  have hg : (b : Rat) / D - (a : Rat) / D = ((b - a : Nat) : Rat) / D := by rw [hc]; grind
  have hx : (4 : Rat) / ((b : Rat) / D - (a : Rat) / D) = 4 * D / ((b - a : Nat) : Rat) := by rw [hg, hc]; grind
  refine ⟨d, ?_, by rw [hg]; exact e2, e3⟩
  unfold idiomatic
  unfold translateDuration at e1
  rw [if_neg (by rw [hc]; grind)] at e1
  simp only [Nat.lt_irrefl, gt_iff_lt, if_false] at e1
  rw [hx]
  have e1' : idiomaticDuration (4 * (D : Rat) / ((b - a : Nat) : Rat)) 0 = some d := by rw [Rat.intCast_natCast] at e1; exact e1
  rw [e1']
  simp only
  rw [if_neg]
  have : (0 : Rat) < 4 * D / ((b - a : Nat) : Rat) := by
    rw [hc]; exact (Rat.lt_div_iff ht).2 (by grind)
  grind

end Importer
end Alda
