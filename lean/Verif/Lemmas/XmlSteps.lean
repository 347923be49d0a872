import Verif.Lemmas.XmlSim
/-!
The importer follows the reading of a part: moves, markings, and the clean-up after a measure.
-/
namespace Alda
namespace Importer
open Spec

section
variable {D : Nat} {K : KeySig} {V : List Nat} {r : XmlReading} {E : Nat → Nat} {p : XPart}

/-! ### Moves -/

theorem PartOk.cursor (h : PartOk D K V r E p) {r' : XmlReading} {c : Nat} (hr : r' = { r with cursor := c, last := none }) (time : TimeOk D V r' E) :
    PartOk D K V r' E { p with beats := (c : Rat) / D } := by
  subst hr
  exact ⟨time, h.divisions, h.keys, rfl, h.voices, h.cur, fun m hm => by simp at hm⟩

theorem forward_ok (h1 : 1 ≤ D) (h2 : D ≤ 24) (h : PartOk D K V r E p) {e : Elem} {t : Nat} (he : MoveOf "forward" e t) (hs : r.Sensible D (.forward t)) :
    ∃ p', forward e p = .ok p' ∧ PartOk D K V (r.item (.forward t)) E p' ∧ Same p p' := by
  obtain ⟨hs1, hs2⟩ := hs
  have T := h.time
  have b1 := T.low
  obtain ⟨d, e1, e2⟩ := elemDuration_ok h.divisions h1 h2 he.length hs1 (by omega) (by rw [he.dots]; simp)
  have hD : (0 : Rat) < D := by exact_mod_cast h1
  refine ⟨{ p with beats := ((r.cursor + t : Nat) : Rat) / D }, ?_, h.cursor rfl ?_, ⟨rfl, rfl, rfl, rfl, rfl⟩⟩
  · unfold forward
    rw [e1]
    simp only [bind, Except.bind, pure, Except.pure, beatsSum, beatsUpd, e2.1.beats, h.beats, Rat.add_zero]
    congr 2
    push_cast; grind
  · exact ⟨by show r.bar ≤ r.cursor + t; omega, hs2, T.furthest, T.le, T.from_, T.to, T.lag, T.top, T.even, T.fresh⟩

theorem backup_ok (h1 : 1 ≤ D) (h2 : D ≤ 24) (h : PartOk D K V r E p) {e : Elem} {t : Nat} (he : MoveOf "backup" e t) (hs : r.Sensible D (.backup t)) :
    ∃ p', backup e p = .ok p' ∧ PartOk D K V (r.item (.backup t)) E p' ∧ Same p p' := by
  obtain ⟨hs1, hs2⟩ := hs
  have T := h.time
  have b1 := T.high
  obtain ⟨d, e1, e2⟩ := elemDuration_ok h.divisions h1 h2 he.length hs1 (by omega) (by rw [he.dots]; simp)
  have hD : (0 : Rat) < D := by exact_mod_cast h1
  refine ⟨{ p with beats := ((r.cursor - t : Nat) : Rat) / D }, ?_, h.cursor rfl ?_, ⟨rfl, rfl, rfl, rfl, rfl⟩⟩
  · unfold backup
    rw [e1]
    simp only [bind, Except.bind, pure, Except.pure, beatsSum, beatsUpd, e2.1.beats, h.beats, Rat.add_zero]
    congr 2
    obtain ⟨c, hc⟩ : ∃ c, r.cursor = c + t := ⟨r.cursor - t, by omega⟩
    rw [hc, Nat.add_sub_cancel]
    push_cast; grind
  · exact ⟨by show r.bar ≤ r.cursor - t; omega, by show r.cursor - t ≤ r.bar + 20000 * D; omega, T.furthest, T.le, T.from_, T.to, T.lag, T.top, T.even, T.fresh⟩

/-! ### Mentions and markings -/

theorem position_le (T : TimeOk D V r E) {n : Nat} (hn : n ∈ V) : r.position n ≤ E n := by
  have h1 := T.from_ n hn
  unfold XmlReading.position
  split
  · rename_i h
    have := T.even h n hn
    omega
  · exact h1

theorem position_eq (T : TimeOk D V r E) {n : Nat} (hn : n ∈ V) (h : r.position n = r.cursor) : E n = r.cursor := by
  have h1 := position_le T hn
  have h2 := T.to n hn
  have h3 := T.low
  unfold XmlReading.position at h h1
  split at h
  · rw [if_pos ‹_›] at h1; omega
  · rw [if_neg ‹_›] at h1; omega

theorem mention_ok (h1 : 1 ≤ D) (h : PartOk D K V r E p) {e : Elem} {n : Nat} (he : Says e "voice" n) (hn' : n ≤ 127) (hn : n ∈ V) (hs : r.Sensible D (.mention n)) :
    ∃ p', switchVoice e p = .ok p' ∧ PartOk D K V (r.item (.mention n)) E p' ∧ Same p p' := by
  have T := h.time
  have hle : r.cursor ≤ E n := Nat.le_trans hs (position_le T hn)
  refine ⟨{ p with cur := .at n }, ?_, ?_, ⟨rfl, rfl, rfl, rfl, rfl⟩⟩
  · rw [switchVoice_numeral he hn', pad_nothing h1 h hn hle]
  · exact ⟨⟨T.low, T.high, T.furthest, T.le, T.from_, T.to, T.lag, T.top, T.even, fun h => by simp [XmlReading.item] at h⟩, h.divisions, h.keys, h.beats, h.voices,
      ⟨n, hn, rfl, fun w hw => by simpa [XmlReading.item] using hw⟩, h.last⟩

/-- The importer is ready for a dynamic marking. -/
def Level (D : Nat) (K : KeySig) (V : List Nat) (r : XmlReading) (E : Nat → Nat) (p : XPart) : Prop :=
  PartOk D K V r E p ∧ r.last = none ∧ ∃ n ∈ V, p.cur = .at (n : Int) ∧ E n = r.cursor

theorem dynamic_marking {m : String} (h : (dynamicVolumes.lookup m).isSome = true) : m ∈ markings := by
  have : ∀ l : List (String × Rat), (l.lookup m).isSome = true → m ∈ l.map (·.1) := by
    intro l
    induction l with
    | nil => intro h; simp at h
    | cons x l ih =>
      intro h
      rw [List.lookup_cons] at h
      by_cases hx : m = x.1
      · rw [hx]; exact List.mem_cons_self ..
      · rw [show (m == x.1) = false by simpa using hx] at h
        exact List.mem_cons_of_mem _ (ih h)
  exact this _ h

theorem dynamics_ok (h1 : 1 ≤ D) (h2 : D ≤ 24) : ∀ (ms : List Elem) (p : XPart), Level D K V r E p → ∃ p', dynamics ms p = .ok p' ∧ Level D K V r E p' ∧ Same p p' := by
  intro ms
  induction ms with
  | nil => intro p h; exact ⟨p, rfl, h, .refl p⟩
  | cons m ms ih =>
    intro p h
    unfold dynamics
    split
    · rename_i htag
      obtain ⟨h, hl, n, hn, hc, he⟩ := h
      obtain ⟨v, hv, ok⟩ := h.voices n hn
      have hb : beatsSum (v.events ++ [.leaf (.attr (.dynamic m.tag))]) = (r.cursor : Rat) / D := by
        rw [beatsSum_append, ok.sum, he]; simp only [beatsSum, beatsUpd, Rat.add_zero]
      rw [append_flat hc hv ok.flat]
      simp only [bind, Except.bind]
      unfold XPart.withEvents
      rw [hb, round_grid h1 h2]
      have hp : ({ p with cur := .at n } : XPart) = p := by rw [← hc]
      have ok' : PartOk D K V r E (p.put n { v with events := v.events ++ [.leaf (.attr (.dynamic m.tag))], beats := (r.cursor : Rat) / D } ((r.cursor : Rat) / D)) := by
        have := h.change h.time hn (fun _ _ _ => rfl) (fun _ _ => rfl) (v' := { v with events := v.events ++ [.leaf (.attr (.dynamic m.tag))], beats := (r.cursor : Rat) / D })
          ⟨⟨ok.flat.append (FlatL.one (.dynamic _) (.dynamic _ (dynamic_marking htag))), by simp only; rw [he]; exact hb, by simp only; rw [Pen.run_append]; exact ok.octave, by simp only; rw [Pen.run_append]; exact ok.tones⟩, by simp only; rw [he]⟩
          (by
            obtain ⟨n', _, hc', h'⟩ := h.cur
            rw [hc] at hc'
            simp only [Cur.at.injEq] at hc'
            have : n = n' := by exact_mod_cast hc'
            subst this; exact h')
          (fun m hm => by rw [hl] at hm; simp at hm)
        rwa [hp] at this
      obtain ⟨p', e1, e2, e3⟩ := ih _ ⟨ok', hl, n, hn, hc, he⟩
      exact ⟨p', e1, e2, (⟨rfl, rfl, rfl, rfl, rfl⟩ : Same p (p.put n _ _)).trans e3⟩
    · exact ih p h

theorem level_ok (h : PartOk D K V r E p) (hs : r.Sensible D .dynamics) : Level D K V (r.item .dynamics) E p := by
  have T := h.time
  obtain ⟨n, hn, hc, hw⟩ := h.cur
  refine ⟨⟨⟨T.low, T.high, T.furthest, T.le, T.from_, T.to, T.lag, T.top, T.even, T.fresh⟩, h.divisions, h.keys, h.beats, h.voices, ⟨n, hn, hc, hw⟩, fun m hm => by simp [XmlReading.item] at hm⟩, rfl, n, hn, hc, ?_⟩
  show E n = r.cursor
  rcases hs with ⟨v, h3, h4⟩ | ⟨h3, h4, h5⟩
  · have := hw v h3
    subst this
    exact position_eq T hn h4
  · have a1 := T.even h4 n hn
    have a2 := T.to n hn
    have a3 := T.le n
    have a4 := T.fresh h3
    omega

/-! ### After a measure -/

/-- The voices have come to `E`, the part to `b`. -/
structure Mid (D : Nat) (K : KeySig) (V : List Nat) (notes : List XmlNote) (E : Nat → Nat) (b : Nat) (p : XPart) : Prop where
  divisions : p.divisions = D
  keys : p.voices.map (·.1) = V.map (fun n : Nat => (n : Int))
  beats : p.beats = (b : Rat) / D
  voices : ∀ n ∈ V, ∃ v, p.voices.lookup (n : Int) = some v ∧ VoiceOk D K v (E n) (inVoice n notes)
  cur : ∃ n ∈ V, p.cur = .at (n : Int)

theorem Mid.put {notes : List XmlNote} {b : Nat} (h : Mid D K V notes E b p) {n : Nat} (hn : n ∈ V) {v' : Voice} {c : Nat} (hv : VoiceOk D K v' c (inVoice n notes)) :
    Mid D K V notes (fun m => if m = n then c else E m) c (({ p with cur := .at n } : XPart).put n v' ((c : Rat) / D)) := by
  refine ⟨h.divisions, put_voices (p := { p with cur := .at n }) _ _ hn h.keys, rfl, ?_, n, hn, rfl⟩
  intro m hm
  by_cases e : m = n
  · subst e; refine ⟨v', put_lookup_self .., ?_⟩; rw [if_pos rfl]; exact hv
  · obtain ⟨w, hw, ok⟩ := h.voices m hm
    refine ⟨w, ?_, ?_⟩
    · rw [put_lookup (p := { p with cur := .at n }) _ _ e]; exact hw
    · rw [if_neg e]; exact ok

/-- One voice. -/
theorem tidy_ok (h1 : 1 ≤ D) (h2 : D ≤ 24) {notes : List XmlNote} {b : Nat} (h : Mid D K V notes E b p) {n : Nat} (hn : n ∈ V) (hg : b ≤ E n + 40000 * D) :
    ∃ q p', padVoice (p.point n) = .ok q ∧ addBarline q = .ok p' ∧ Mid D K V notes (fun m => if m = n then max (E n) b else E m) (max (E n) b) p' ∧ Same p p' := by
  obtain ⟨v, hv, ok⟩ := h.voices n hn
  have key : ∀ (w : Voice) (c : Nat) (x : Rat), VoiceLike D K w c (inVoice n notes) → ∃ p', addBarline (({ p with cur := .at n } : XPart).put n w x) = .ok p' ∧
      Mid D K V notes (fun m => if m = n then c else E m) c p' ∧ Same p p' := by
    intro w c x like
    obtain ⟨es, e1, e2, e3, e4⟩ := addBarline_flat (p := ({ p with cur := .at n } : XPart).put n w x) (n := n) rfl (put_lookup_self ..) like.flat
    refine ⟨_, e1, ?_, ⟨rfl, rfl, rfl, rfl, rfl⟩⟩
    unfold XPart.withEvents
    rw [put_put, e3, like.sum, round_grid h1 h2]
    refine h.put hn ⟨⟨e2, ?_, ?_, ?_⟩, rfl⟩
    · simp only; rw [e3, like.sum]
    · simp only; rw [e4]; exact like.octave
    · simp only; rw [e4]; exact like.tones
  by_cases hlt : E n ≤ b
  · obtain ⟨w, hw, like⟩ := pad_at h1 h2 hv h.beats ok.toVoiceLike ok.beats hlt hg
    obtain ⟨p', a1, a2, a3⟩ := key w b _ like
    rw [Nat.max_eq_right hlt]
    exact ⟨_, p', hw, a1, a2, a3⟩
  · have hw := pad_none h1 hv h.beats ok.beats (by omega : b ≤ E n)
    obtain ⟨p', a1, a2, a3⟩ := key v (E n) p.beats ok.toVoiceLike
    rw [Nat.max_eq_left (by omega)]
    refine ⟨_, p', hw, ?_, a2, a3⟩
    rw [← a1]
    unfold XPart.put
    rw [assign_same (l := ({ p with cur := .at n } : XPart).voices) hv]

/-- The clean-up after a measure that is not the last. -/
theorem cleanUp_more (h1 : 1 ≤ D) (h2 : D ≤ 24) {notes : List XmlNote} {B : Nat} : ∀ (ns : List Nat) (E : Nat → Nat) (b : Nat) (p : XPart), Mid D K V notes E b p → (∀ n ∈ ns, n ∈ V) →
    (∀ n ∈ V, E n ≤ B ∧ B ≤ E n + 40000 * D) → b ≤ B → ∃ E' b' p', cleanUp true (ns.map (fun n : Nat => (n : Int))) p = .ok p' ∧ Mid D K V notes E' b' p' ∧ Same p p' ∧
      (∀ n ∈ V, E n ≤ E' n ∧ E' n ≤ B) ∧ (b ≤ b' ∧ b' ≤ B) ∧ ∀ n ∈ ns, b ≤ E' n ∧ E n ≤ b' := by
  intro ns
  induction ns with
  | nil => intro E b p h _ hB hb; exact ⟨E, b, p, rfl, h, .refl p, fun n hn => ⟨Nat.le_refl _, (hB n hn).1⟩, ⟨Nat.le_refl _, hb⟩, fun n hn => by simp at hn⟩
  | cons n ns ih =>
    intro E b p h hV hB hb
    have hn := hV n (List.mem_cons_self ..)
    have hBn := hB n hn
    obtain ⟨q, p1, e1, e2, e3, e4⟩ := tidy_ok h1 h2 h hn (by omega)
    have hB1 : ∀ m ∈ V, (if m = n then max (E n) b else E m) ≤ B ∧ B ≤ (if m = n then max (E n) b else E m) + 40000 * D := by
      intro m hm
      have := hB m hm
      split
      · omega
      · exact this
    obtain ⟨E', b', p', a1, a2, a3, a4, a5, a6⟩ := ih _ _ p1 e3 (fun m hm => hV m (List.mem_cons_of_mem _ hm)) hB1 (by omega)
    refine ⟨E', b', p', ?_, a2, e4.trans a3, ?_, ?_, ?_⟩
    · rw [List.map_cons]
      unfold cleanUp
      rw [e1]
      simp only [bind, Except.bind, if_true]
      rw [e2]
      exact a1
    · intro m hm
      have := a4 m hm
      refine ⟨?_, this.2⟩
      have h3 := this.1
      split at h3
      · rename_i e; subst e; omega
      · exact h3
    · omega
    · intro m hm
      rcases List.mem_cons.1 hm with rfl | hm
      · have := (a4 m hn).1
        rw [if_pos rfl] at this
        omega
      · have := a6 m hm
        refine ⟨by omega, ?_⟩
        have h3 := this.2
        split at h3
        · rename_i e; subst e; omega
        · exact h3

/-- The next measure begins. -/
theorem nextBar_ok (h1 : 1 ≤ D) (h2 : D ≤ 24) (h : PartOk D K V r E p) {ns : List Nat} (hns : ns.Perm V) :
    ∃ E' p', cleanUp true (ns.map (fun n : Nat => (n : Int))) p = .ok p' ∧ PartOk D K V r.nextBar E' p' ∧ Same p p' := by
  have T := h.time
  have b1 := T.low
  have b2 := T.high
  have b3 := T.furthest
  obtain ⟨n0, hn0, hc0, _⟩ := h.cur
  have hB : ∀ n ∈ V, E n ≤ max r.cursor r.furthest ∧ max r.cursor r.furthest ≤ E n + 40000 * D := by
    intro n hn
    have a1 := T.to n hn
    have a2 := T.le n
    have a3 := T.lag n hn
    omega
  obtain ⟨E', b', p', c1, c2, c3, c4, c5, c6⟩ := cleanUp_more h1 h2 ns E r.cursor p ⟨h.divisions, h.keys, h.beats, h.voices, n0, hn0, hc0⟩ (fun n hn => hns.mem_iff.1 hn) hB (by omega)
  have hb' : b' = max r.cursor r.furthest := by
    rcases T.top with ht | ⟨n, hn, ht⟩
    · omega
    · have a1 := (c6 n (hns.mem_iff.2 hn)).2
      have a2 := T.from_ n hn
      omega
  refine ⟨E', p', c1, ⟨⟨?_, ?_, ?_, ?_, ?_, ?_, ?_, ?_, ?_, ?_⟩, c2.divisions, c2.keys, ?_, c2.voices, ?_, ?_⟩, c3⟩
  · exact Nat.le_refl _
  · show max r.cursor r.furthest ≤ max r.cursor r.furthest + 20000 * D; omega
  · show r.furthest ≤ max r.cursor r.furthest + 20000 * D; omega
  · exact T.le
  · intro n hn; exact Nat.le_trans (T.from_ n hn) (c4 n hn).1
  · intro n hn
    show E' n ≤ max (r.reached n) (max r.cursor r.furthest)
    have := (c4 n hn).2; omega
  · intro n hn
    show max r.cursor r.furthest ≤ E' n + 20000 * D
    have := (c6 n (hns.mem_iff.2 hn)).1; omega
  · exact .inl (Nat.le_max_right ..)
  · intro he n hn
    have he : decide (r.furthest ≤ r.cursor) = true := he
    have he := of_decide_eq_true he
    show max r.cursor r.furthest ≤ E' n
    have := (c6 n (hns.mem_iff.2 hn)).1; omega
  · intro _; exact Nat.le_max_right ..
  · rw [c2.beats, hb']; rfl
  · obtain ⟨n, hn, hc⟩ := c2.cur
    exact ⟨n, hn, hc, fun w hw => by simp [XmlReading.nextBar] at hw⟩
  · intro m hm; simp [XmlReading.nextBar] at hm

/-- The clean-up after the last measure. -/
theorem cleanUp_last (h1 : 1 ≤ D) (h2 : D ≤ 24) {notes : List XmlNote} {b : Nat} : ∀ (ns : List Nat) (p : XPart), ns.Nodup → (∀ n ∈ ns, n ∈ V) →
    p.voices.map (·.1) = V.map (fun n : Nat => (n : Int)) → p.beats = (b : Rat) / D →
    (∀ n ∈ V, ∃ v a, p.voices.lookup (n : Int) = some v ∧ VoiceLike D K v a (inVoice n notes) ∧ (n ∈ ns → v.beats = (a : Rat) / D ∧ b ≤ a + 40000 * D)) →
    (∃ n ∈ V, p.cur = .at (n : Int)) →
    ∃ p', cleanUp false (ns.map (fun n : Nat => (n : Int))) p = .ok p' ∧ Same p p' ∧ p'.voices.map (·.1) = V.map (fun n : Nat => (n : Int)) ∧
      (∃ n ∈ V, p'.cur = .at (n : Int)) ∧ ∀ n ∈ V, ∃ v a, p'.voices.lookup (n : Int) = some v ∧ VoiceLike D K v a (inVoice n notes) := by
  intro ns
  induction ns with
  | nil =>
    intro p _ _ hk _ hv hc
    exact ⟨p, rfl, .refl p, hk, hc, fun n hn => by obtain ⟨v, a, e1, e2, _⟩ := hv n hn; exact ⟨v, a, e1, e2⟩⟩
  | cons n ns ih =>
    intro p hd hV hk hb hv hc
    rw [List.nodup_cons] at hd
    have hn := hV n (List.mem_cons_self ..)
    obtain ⟨v, a, e1, e2, e3⟩ := hv n hn
    obtain ⟨e3, e4⟩ := e3 (List.mem_cons_self ..)
    have key : ∃ q, padVoice (p.point n) = .ok q ∧ Same p q ∧ q.voices.map (·.1) = V.map (fun n : Nat => (n : Int)) ∧ q.beats = (b : Rat) / D ∧ q.cur = .at (n : Int) ∧
        (∃ v a, q.voices.lookup (n : Int) = some v ∧ VoiceLike D K v a (inVoice n notes)) ∧ ∀ m : Nat, m ≠ n → q.voices.lookup (m : Int) = p.voices.lookup (m : Int) := by
      by_cases hlt : a ≤ b
      · obtain ⟨w, hw, like⟩ := pad_at h1 h2 e1 hb e2 e3 hlt e4
        exact ⟨_, hw, ⟨rfl, rfl, rfl, rfl, rfl⟩, put_voices (p := { p with cur := .at n }) _ _ hn hk, rfl, rfl, ⟨w, b, put_lookup_self .., like⟩, fun m hm => put_lookup (p := { p with cur := .at n }) _ _ hm⟩
      · exact ⟨_, pad_none h1 e1 hb e3 (by omega), ⟨rfl, rfl, rfl, rfl, rfl⟩, hk, hb, rfl, ⟨v, a, e1, e2⟩, fun m hm => rfl⟩
    obtain ⟨q, k1, k2, k3, k4, k5, k6, k7⟩ := key
    obtain ⟨p', a1, a2, a3, a4, a5⟩ := ih q hd.2 (fun m hm => hV m (List.mem_cons_of_mem _ hm)) k3 k4 (by
      intro m hm
      by_cases e : m = n
      · subst e
        obtain ⟨v, a, x1, x2⟩ := k6
        exact ⟨v, a, x1, x2, fun h => absurd h hd.1⟩
      · rw [k7 m e]
        obtain ⟨v, a, x1, x2, x3⟩ := hv m hm
        exact ⟨v, a, x1, x2, fun h => x3 (List.mem_cons_of_mem _ h)⟩) ⟨n, hn, k5⟩
    refine ⟨p', ?_, k2.trans a2, a3, a4, a5⟩
    rw [List.map_cons]
    unfold cleanUp
    rw [k1]
    simp only [bind, Except.bind, Bool.false_eq_true, if_false, pure, Except.pure]
    exact a1

end
end Importer
end Alda
