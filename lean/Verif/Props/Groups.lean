import Verif.Props.Parts
/-!
C20 for groups: which declarations of several names are accepted, and what they refer to.
-/
namespace Alda

theorem hasDuplicate_iff : ∀ (names : List String), hasDuplicate names = true ↔ ¬ names.Nodup
  | [] => by simp [hasDuplicate]
  | n :: ns => by
    simp only [hasDuplicate, Bool.or_eq_true, hasDuplicate_iff ns, List.nodup_cons, List.contains_iff_mem]
    by_cases h : n ∈ ns <;> simp [h]

/-- A declaration, after the voices have been ended. -/
theorem decl_run (names : List String) (alias : String) (s : Score) :
    partDeclUpd names alias s =
      match determineParts names alias (voiceEndUpd s).s with
      | (.error e, t) => .fail e t
      | (.ok parts, t) => if t.parts = [] ∧ parts = [] then .fail (.panic "index out of range") t else .ok (declareParts parts alias t) := by
  unfold partDeclUpd Out.andThen
  rw [voiceEndUpd_ok s]
  rfl

/-- C20: a name that occurs twice in a group, anywhere in it, is an error; there are the same instances and aliases as before. -/
theorem c20_repeated_name (s : Score) (names : List String) (alias : String) (hr : Reachable s) (hn : ¬ names.Nodup) :
    (update [.partDecl names alias] s).err ≠ none ∧ instances (update [.partDecl names alias] s).s = instances s ∧
    ∀ a, aliased (update [.partDecl names alias] s).s a = aliased s a := by
  have g := hr.all_good
  have hd : ∀ v, determineParts names alias v = (.error (.user "Name included multiple times in group"), v) := by
    intro v
    unfold determineParts
    split
    · simp at hn
    · rw [if_pos ((hasDuplicate_iff names).2 hn)]
  rw [upd_partDecl]
  obtain ⟨v, wv, hv, hc⟩ := partDeclUpd_cases names alias s g
  rcases hc with ⟨e, t, h1, m, he, hs⟩ | ⟨parts, t, h1, _⟩
  · have hne : (partDeclUpd names alias s).err ≠ none := by rw [he]; simp
    refine ⟨hne, ?_, fun a => failed_aliases g _ _ hne a⟩
    have hvw := m.view.1.trans hv.1
    have key : ∀ x : Score, instances x = (partView x).map (·.1) := by
      intro x
      unfold instances partView
      rw [List.map_map]; rfl
    rw [hs, key, key, hvw]
  · rw [hd] at h1; cases h1

theorem collectGroup_kinds (s0 : Score) (ns : List String) : ∀ (named stock : List Nat) (s : Score), Made s0 s → ∀ r, (collectGroup s named stock ns).1 = .ok r →
    ((named ≠ [] ∨ ∃ n ∈ ns, s0.namedParts n ≠ []) → r.1 ≠ []) ∧ ((stock ≠ [] ∨ ∃ n ∈ ns, s0.namedParts n = []) → r.2 ≠ []) := by
  induction ns with
  | nil =>
    intro named stock s m r hr
    simp only [collectGroup, Except.ok.injEq] at hr
    subst hr
    simp
  | cons n ns ih =>
    intro named stock s m r hr
    simp only [collectGroup] at hr
    rw [m.named] at hr
    split at hr
    · rename_i h
      obtain ⟨h1, h2⟩ := ih _ _ s m r hr
      refine ⟨fun _ => h1 (.inl (by simp [h])), fun hx => h2 ?_⟩
      rcases hx with hx | ⟨k, hk, hx⟩
      · exact .inl hx
      · rcases List.mem_cons.1 hk with rfl | hk
        · exact absurd hx h
        · exact .inr ⟨k, hk, hx⟩
    · rename_i h
      have hnm : ∀ {named : List Nat}, (named ≠ [] ∨ ∃ k ∈ n :: ns, s0.namedParts k ≠ []) → named ≠ [] ∨ ∃ k ∈ ns, s0.namedParts k ≠ [] := by
        rintro named (hx | ⟨k, hk, hx⟩)
        · exact .inl hx
        · rcases List.mem_cons.1 hk with rfl | hk
          · exact absurd hx h
          · exact .inr ⟨k, hk, hx⟩
      split at hr
      · rename_i hu
        obtain ⟨h1, h2⟩ := ih _ _ s m r hr
        exact ⟨fun hx => h1 (hnm hx), fun _ => h2 (.inl (by simp [hu]))⟩
      · split at hr
        · simp at hr
        · rename_i id s' hnp
          obtain ⟨h1, h2⟩ := ih _ _ s' (m.step hnp) r hr
          exact ⟨fun hx => h1 (hnm hx), fun _ => h2 (.inl (by simp))⟩

/-- C20: a group cannot have both names of instruments and aliases. -/
theorem c20_mixed (s : Score) (names : List String) (alias : String) (hr : Reachable s) (n n' : String) (hn : n ∈ names) (hn' : n' ∈ names) (h : aliased s n = []) (h' : aliased s n' ≠ []) :
    (update [.partDecl names alias] s).err ≠ none ∧ ∀ a, aliased (update [.partDecl names alias] s).s a = aliased s a := by
  have g := hr.all_good
  rw [upd_partDecl]
  have he : (partDeclUpd names alias s).err ≠ none := by
    obtain ⟨v, wv, hv, hc⟩ := partDeclUpd_cases names alias s g
    rcases hc with ⟨e, t, _, _, he, _⟩ | ⟨parts, t, hd, m, ⟨he, _⟩ | ⟨_, d⟩⟩
    · rw [he]; simp
    · exact he
    · unfold determineParts at hd
      split at hd
      · rename_i name
        simp only [List.mem_singleton] at hn hn'
        subst hn hn'
        exact absurd h h'
      split at hd
      · simp at hd
      have hk := collectGroup_kinds v names [] [] v (.refl wv)
      split at hd
      · simp at hd
      · rename_i named stock s1 hcg
        rw [hcg] at hk
        obtain ⟨h1, h2⟩ := hk _ rfl
        rw [if_pos ⟨h1 (.inr ⟨n', hn', fun hx => h' ((named_nil hv n').1 hx)⟩), h2 (.inr ⟨n, hn, (named_nil hv n).2 h⟩)⟩] at hd
        simp at hd
  exact ⟨he, fun a => failed_aliases g _ _ he a⟩

theorem newPart_known {n : String} {s : Score} (h : stockInstrumentName n ≠ none) : ∃ r, newPart n s = some r := by
  unfold stockInstrumentName at h
  unfold newPart
  cases hx : stockInstrument n with
  | none => rw [hx] at h; exact absurd rfl h
  | some i => exact ⟨_, rfl⟩

theorem collectGroup_ok (ns : List String) : ∀ (named stock : List Nat) (s : Score), (∀ n ∈ ns, stockInstrumentName n ≠ none) → ∃ r t, collectGroup s named stock ns = (.ok r, t) := by
  induction ns with
  | nil => intro named stock s _; exact ⟨_, _, rfl⟩
  | cons n ns ih =>
    intro named stock s h
    have hns : ∀ k ∈ ns, stockInstrumentName k ≠ none := fun k hk => h k (List.mem_cons_of_mem _ hk)
    simp only [collectGroup]
    split
    · exact ih _ _ _ hns
    · split
      · exact ih _ _ _ hns
      · obtain ⟨⟨id, t⟩, hp⟩ := newPart_known (s := s) (h n (List.mem_cons_self ..))
        rw [hp]
        exact ih _ _ _ hns

theorem newGroup_ok (ns : List String) : ∀ (acc : List Nat) (s : Score), (∀ n ∈ ns, stockInstrumentName n ≠ none) → ∃ r t, newGroup s acc ns = (.ok r, t) := by
  induction ns with
  | nil => intro acc s _; exact ⟨_, _, rfl⟩
  | cons n ns ih =>
    intro acc s h
    obtain ⟨⟨id, t⟩, hp⟩ := newPart_known (s := s) (h n (List.mem_cons_self ..))
    simp only [newGroup]
    rw [hp]
    exact ih _ _ (fun k hk => h k (List.mem_cons_of_mem _ hk))

/-- C20: several different instruments, none of whose names is an alias, can be declared together, with or without an alias. -/
theorem c20_group_accepted (s : Score) (names : List String) (alias : String) (hr : Reachable s) (hl : 2 ≤ names.length) (hn : names.Nodup)
    (h0 : ∀ n ∈ names, aliased s n = [] ∧ stockInstrumentName n ≠ none) : (update [.partDecl names alias] s).err = none := by
  have g := hr.all_good
  rw [upd_partDecl, decl_run names alias s]
  obtain ⟨hv, wv⟩ := voiceEndUpd_view s g.wf
  generalize (voiceEndUpd s).s = v at hv wv ⊢
  have hne : names ≠ [] := by rintro rfl; simp at hl
  have hst := collectGroup_stock v names [] v (.refl wv) (fun n hn => (named_nil hv n).2 (h0 n hn).1)
  obtain ⟨m1, _⟩ := collectGroup_made v wv names [] [] v (.refl wv) (by simp) (by simp)
  obtain ⟨r, t, hc⟩ := collectGroup_ok names [] [] v (fun n hn => (h0 n hn).2)
  rw [hc] at hst m1
  obtain ⟨h1, h2⟩ := hst r rfl
  have h2 := h2 (.inr hne)
  have key : ∃ parts t', determineParts names alias v = (.ok parts, t') ∧ parts ≠ [] := by
    unfold determineParts
    split
    · simp at hl
    rw [if_neg (by rw [hasDuplicate_iff]; exact fun h => h hn), hc]
    simp only
    rw [if_neg (by simp [h1])]
    split
    · obtain ⟨r', t', hg⟩ := newGroup_ok names [] t (fun n hn => (h0 n hn).2)
      have hlen := newGroup_length v names [] t m1 (by simp)
      rw [hg] at hlen
      refine ⟨r', t', hg, ?_⟩
      rintro rfl
      have := hlen [] rfl
      simp at this
      omega
    · refine ⟨_, _, rfl, fun he => ?_⟩
      obtain ⟨i, hi⟩ := List.exists_mem_of_ne_nil _ h2
      have : i ∈ dedup (dedup [] r.1) r.2 := by rw [dedup_mem]; exact .inr hi
      rw [he] at this
      cases this
  obtain ⟨parts, t', hd, hp⟩ := key
  rw [hd]
  simp only
  rw [if_neg (fun h => hp h.2)]
  rfl

theorem collectGroup_named (s : Score) (ns : List String) : ∀ (named stock : List Nat), (∀ n ∈ ns, s.namedParts n ≠ []) → collectGroup s named stock ns = (.ok (named ++ ns.flatMap s.namedParts, stock), s) := by
  induction ns with
  | nil => intro named stock _; simp [collectGroup]
  | cons n ns ih =>
    intro named stock h
    simp only [collectGroup]
    rw [if_pos (h n (List.mem_cons_self ..)), ih _ _ (fun k hk => h k (List.mem_cons_of_mem _ hk))]
    simp

/-- C20: a group of aliases plays the instances of all of them. -/
theorem c20_group_of_aliases (s : Score) (names : List String) (alias : String) (hr : Reachable s) (hl : 2 ≤ names.length) (hn : names.Nodup) (h0 : ∀ n ∈ names, aliased s n ≠ []) :
    (update [.partDecl names alias] s).err = none ∧ ∀ o, o ∈ playing (update [.partDecl names alias] s).s ↔ ∃ n ∈ names, o ∈ aliased s n := by
  have g := hr.all_good
  rw [upd_partDecl]
  have hdet : ∀ v, SameView s v → determineParts names alias v = (.ok (dedup (dedup [] (names.flatMap v.namedParts)) []), v) := by
    intro v hv
    unfold determineParts
    split
    · simp at hl
    rw [if_neg (by rw [hasDuplicate_iff]; exact fun h => h hn), collectGroup_named v names [] [] (fun n hn hx => h0 n hn ((named_nil hv n).1 hx))]
    simp
  have hne : ∀ v, SameView s v → dedup (dedup [] (names.flatMap v.namedParts)) [] ≠ [] := by
    intro v hv he
    obtain ⟨n, hm⟩ := List.exists_mem_of_ne_nil names (by rintro rfl; simp at hl)
    obtain ⟨i, hi⟩ := List.exists_mem_of_ne_nil (v.namedParts n) (fun hx => h0 n hm ((named_nil hv n).1 hx))
    have : i ∈ dedup (dedup [] (names.flatMap v.namedParts)) [] := by
      rw [dedup_mem, dedup_mem]
      exact .inl (.inr (List.mem_flatMap.2 ⟨n, hm, hi⟩))
    rw [he] at this
    cases this
  have herr : (partDeclUpd names alias s).err = none := by
    obtain ⟨hv, _⟩ := voiceEndUpd_view s g.wf
    rw [decl_run names alias s, hdet _ hv]
    simp only
    rw [if_neg (fun h => hne _ hv h.2)]
    rfl
  refine ⟨herr, ?_⟩
  obtain ⟨v, wv, hv, hc⟩ := partDeclUpd_cases names alias s g
  rcases hc with ⟨e, t, _, _, he, _⟩ | ⟨parts, t, hd, m, ⟨he, _⟩ | ⟨_, d⟩⟩
  · rw [herr] at he; cases he
  · exact absurd herr he
  · rw [hdet v hv] at hd
    cases hd
    intro o
    have hp : playing (partDeclUpd names alias s).s = origins v (dedup (dedup [] (names.flatMap v.namedParts)) []) := by
      unfold playing; rw [d.current]; exact d.origins _
    have hal : ∀ n, aliased s n = origins v (v.namedParts n) := by
      intro n
      rw [aliased_view, ← hv.2, ← aliased_view]
      unfold aliased Score.namedParts origins
      cases v.aliases.lookup n <;> rfl
    rw [hp]
    constructor
    · intro h
      obtain ⟨i, hi, rfl⟩ := List.mem_map.1 h
      rw [dedup_mem, dedup_mem] at hi
      rcases hi with (hi | hi) | hi
      · cases hi
      · obtain ⟨n, hm, hi⟩ := List.mem_flatMap.1 hi
        exact ⟨n, hm, by rw [hal]; exact List.mem_map_of_mem hi⟩
      · cases hi
    · rintro ⟨n, hm, h⟩
      rw [hal] at h
      obtain ⟨i, hi, rfl⟩ := List.mem_map.1 h
      refine List.mem_map_of_mem ?_
      rw [dedup_mem, dedup_mem]
      exact .inl (.inr (List.mem_flatMap.2 ⟨n, hm, hi⟩))

/-- `piano/violin/piano` is an error, and so is `v/flute` after `violin "v"`. -/
example : ¬ ["piano", "violin", "piano"].Nodup ∧ (update [.partDecl ["piano", "violin", "piano"] ""] newScore).err ≠ none ∧
    aliased (update [.partDecl ["violin"] "v"] newScore).s "v" = [0] ∧ aliased (update [.partDecl ["violin"] "v"] newScore).s "flute" = [] ∧
    (update [.partDecl ["violin"] "v", .partDecl ["v", "flute"] ""] newScore).err ≠ none := by decide +kernel

/-- `violin "v": cello "w": v/w:` plays both. -/
example : playing (update [.partDecl ["violin"] "v", .partDecl ["cello"] "w", .partDecl ["v", "w"] "vw"] newScore).s = [0, 1] ∧
    (update [.partDecl ["piano", "violin"] "", .partDecl ["cello", "flute"] "x"] newScore).err = none := by decide +kernel

end Alda
