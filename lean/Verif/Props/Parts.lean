import Verif.Lemmas.Parts
import Verif.Lemmas.Demo
/-!
C20: part declarations.

Two of the claims are false in full: a declaration of a group can define an alias again, a declaration can overwrite an alias that contains a
dot, and declaring a group may name an instrument that is also used without a name. The theorems named `_partial` exclude these; witnesses are at the end.
-/
namespace Alda

theorem Reachable.all_good {s : Score} (h : Reachable s) : Good (fun _ => True) True s := by
  obtain ⟨p, rfl⟩ := h; exact update_all_good p

theorem unnamed_nil {s : Score} (w : WF s) (n : String) :
    s.unnamedParts n = [] ↔ unnamedView (partView s) (aliasView s) (stockOrNA n) = [] := by
  rw [← unnamed_view w, origins_nil]

theorem named_nil {s t : Score} (h : SameView s t) (n : String) : t.namedParts n = [] ↔ aliased s n = [] := by
  rw [← origins_nil (s := t), named_view, h.2, aliased_view]

/-- A successful declaration of one name without an alias, if the name is not itself an alias. -/
theorem declared_unnamed {s : Score} (g : Good (fun _ => True) True s) (name : String) (h0 : aliased s name = [])
    (h : (partDeclUpd [name] "" s).err = none) :
    let u := (partDeclUpd [name] "" s).s
    playing u = unnamedView (partView u) (aliasView u) (stockOrNA name) ∧ playing u ≠ [] ∧
    (unnamedView (partView s) (aliasView s) (stockOrNA name) ≠ [] →
      playing u = unnamedView (partView s) (aliasView s) (stockOrNA name)) := by
  obtain ⟨v, wv, hv, hc⟩ := partDeclUpd_cases [name] "" s g
  rcases hc with ⟨e, t, _, _, he, _⟩ | ⟨parts, t, hd, m, ⟨he, _⟩ | ⟨_, d⟩⟩
  · rw [h] at he; cases he
  · exact absurd h he
  · have hn : v.namedParts name = [] := (named_nil hv name).2 h0
    have hp : playing (partDeclUpd [name] "" s).s = origins t parts := by
      unfold playing; rw [d.current]; exact d.origins parts
    have keep := d.unnamed_keeps wv (fun h => absurd rfl h) (stock := stockOrNA name)
    simp only [determineParts, determineSingle, hn] at hd
    simp only [ne_eq, not_true_eq_false, false_and, if_false, false_or, true_and] at hd
    split at hd
    · simp at hd
    · simp only
      by_cases hu : v.unnamedParts name = []
      · rw [if_neg (by simpa using hu)] at hd
        obtain ⟨ex, hex, hx⟩ := d.partView
        obtain ⟨_, hm⟩ := onlyNewPart_made (name := name) wv
        rw [hd] at hm
        obtain ⟨i, rfl, hi⟩ := hm parts rfl
        have hal : aliasView (partDeclUpd [name] "" s).s = aliasView v := by
          rcases d.aliases with ⟨h1, _⟩ | ⟨h1, _⟩
          · rw [← d.made.view.2]
            unfold aliasView; rw [h1]
            exact List.map_congr_left (fun a _ => by rw [d.origins])
          · exact absurd rfl h1
        have hex' : ex = [i] := by
          obtain ⟨ex', h', _⟩ := dedup_append [i] t.parts
          have hni : i ∉ t.parts := hi.fresh.notPart
          have : dedup t.parts [i] = t.parts ++ [i] := by simp [dedup, hni]
          have e1 : partView (partDeclUpd [name] "" s).s = partView v ++ [i].map (fun i => ((t.heap i).origin, (t.heap i).instr.name)) := by
            rw [← d.made.view.1]
            unfold partView
            rw [d.inScore, this, List.map_append]
            congr 1 <;> refine List.map_congr_left (fun i _ => ?_) <;> rw [(d.heap i).1, (d.heap i).2]
          rw [hex] at e1
          have e2 := List.append_cancel_left e1
          have hlen := congrArg List.length e2
          simp only [List.length_map, List.length_cons, List.length_nil] at hlen
          rcases ex with _ | ⟨a, _ | ⟨b, l⟩⟩
          · simp at hlen
          · have := (hx a (List.mem_singleton_self _)).1
            simp only [List.mem_singleton] at this
            rw [this]
          · simp at hlen
        refine ⟨?_, by rw [hp]; simp [origins], ?_⟩
        · rw [hp, hex, hal, hex']
          unfold unnamedView
          rw [List.filter_append, List.map_append]
          have e1 := (unnamed_nil wv name).1 hu
          unfold unnamedView at e1
          rw [e1]
          have hno : (aliasView v).any (fun a => a.2.contains (t.heap i).origin) = false := by
            rw [Bool.eq_false_iff]
            intro hany
            simp only [List.any_eq_true, List.contains_iff_mem] at hany
            obtain ⟨b, hb, ho⟩ := hany
            rw [← d.made.view.2] at hb
            obtain ⟨a, ha, rfl⟩ := List.mem_map.1 hb
            obtain ⟨j, hj, e⟩ := List.mem_map.1 ho
            exact hi.fresh.origin_new d.made.wf (d.made.wf.alias_parts a ha j hj) e
          have hin : (t.heap i).instr.name = stockOrNA name := hi.instr
          simp only [List.map_cons, List.map_nil, List.filter_cons, List.filter_nil, hno, hin, origins]
          simp
        · intro hne
          rw [← hv.1, ← hv.2] at hne
          exact absurd ((unnamed_nil wv name).1 hu) hne
      · rw [if_pos (by simpa using hu)] at hd
        simp only [Prod.mk.injEq, Except.ok.injEq] at hd
        obtain ⟨rfl, rfl⟩ := hd
        have hne : unnamedView (partView v) (aliasView v) (stockOrNA name) ≠ [] := fun h => hu ((unnamed_nil wv name).2 h)
        have e := unnamed_view wv name
        refine ⟨by rw [hp, e, keep hne], by rw [hp, e]; exact hne, fun _ => by rw [hp, e, hv.1, hv.2]⟩

/-- C20: declaring an instrument without an alias again continues the same instances, whatever happened in between. -/
theorem c20_again (s s2 : Score) (name : String) (hr : Reachable s) (h0 : aliased s name = [])
    (h1 : (update [.partDecl [name] ""] s).err = none) (hh : History (update [.partDecl [name] ""] s).s s2)
    (h2 : aliased s2 name = []) (h3 : (update [.partDecl [name] ""] s2).err = none) :
    playing (update [.partDecl [name] ""] s2).s = playing (update [.partDecl [name] ""] s).s := by
  have g := hr.all_good
  have g1 := (update_all_steps [.partDecl [name] ""] s g).good g
  obtain ⟨c, g2⟩ := hh.continues g1
  rw [upd_partDecl] at h1 h3 c ⊢
  rw [upd_partDecl] at *
  obtain ⟨a1, a2, _⟩ := declared_unnamed g name h0 h1
  obtain ⟨_, _, b3⟩ := declared_unnamed g2 name h2 h3
  have e := c.unnamed (stockOrNA name) (by rw [← a1]; exact a2)
  rw [b3 (by rw [e, ← a1]; exact a2), e, ← a1]

/-- An error leaves the aliases alone. -/
theorem failed_aliases {s : Score} (g : Good (fun _ => True) True s) (names : List String) (alias : String)
    (h : (partDeclUpd names alias s).err ≠ none) (a : String) : aliased (partDeclUpd names alias s).s a = aliased s a := by
  obtain ⟨v, wv, hv, hc⟩ := partDeclUpd_cases names alias s g
  rw [aliased_view, aliased_view, ← hv.2]
  rcases hc with ⟨e, t, _, m, _, hs⟩ | ⟨parts, t, _, m, ⟨_, hs⟩ | ⟨he, _⟩⟩
  · rw [hs, m.view.2]
  · rw [hs, m.view.2]
  · exact absurd he h

/-- C20: an instrument declared with an alias is a new instance of the named instrument, and the alias refers to it. -/
theorem c20_alias_new (s : Score) (name alias : String) (hr : Reachable s) (ha : alias ≠ "")
    (h : (update [.partDecl [name] alias] s).err = none) :
    ∃ o, playing (update [.partDecl [name] alias] s).s = [o] ∧ aliased (update [.partDecl [name] alias] s).s alias = [o] ∧
      o ∉ instances s ∧ o ∈ instances (update [.partDecl [name] alias] s).s ∧
      stockInstrumentName name = some ((update [.partDecl [name] alias] s).s.heap o).instr.name := by
  have g := hr.all_good
  rw [upd_partDecl] at *
  obtain ⟨v, wv, hv, hc⟩ := partDeclUpd_cases [name] alias s g
  rcases hc with ⟨e, t, _, _, he, _⟩ | ⟨parts, t, hd, m, ⟨he, _⟩ | ⟨_, d⟩⟩
  · rw [h] at he; cases he
  · exact absurd h he
  · simp only [determineParts, determineSingle, ha, ne_eq, not_false_eq_true, true_and, if_true, false_and, or_false] at hd
    split at hd
    · simp at hd
    split at hd
    · simp at hd
    split at hd
    · simp at hd
    have hk : stockInstrument name ≠ none := by
      intro hk
      simp only [onlyNewPart, newPart, hk] at hd
      simp at hd
    obtain ⟨_, hm⟩ := onlyNewPart_made (name := name) wv
    rw [hd] at hm
    obtain ⟨i, rfl, hi⟩ := hm parts rfl
    have hf : Fresh t i := hi.fresh
    have hl : (partDeclUpd [name] alias s).s.aliases.lookup alias = some [i] := by
      rcases d.aliases with ⟨_, h1⟩ | ⟨_, h1, _⟩
      · exact absurd h1 ha
      · rw [h1 alias (dotted_ne alias), if_pos rfl]
    have ho : ((partDeclUpd [name] alias s).s.heap i).origin = i := by rw [(d.heap i).1, hf.org]
    refine ⟨i, ?_, ?_, ?_, ?_, ?_⟩
    · unfold playing; rw [d.current]; simp [ho]
    · unfold aliased; rw [hl]; simp [ho]
    · intro hm
      have : i ∈ (partView s).map (·.1) := by
        unfold instances at hm
        unfold partView
        rw [List.map_map]; exact hm
      rw [← hv.1, ← d.made.view.1] at this
      unfold partView at this
      rw [List.map_map] at this
      obtain ⟨j, hj, e⟩ := List.mem_map.1 this
      exact hf.origin_new d.made.wf hj (by rw [hf.org]; exact e)
    · refine List.mem_map.2 ⟨i, ?_, ho⟩
      rw [d.inScore, dedup_mem]; exact Or.inr (List.mem_singleton_self _)
    · rw [(d.heap i).2]
      have hin : (t.heap i).instr.name = stockOrNA name := hi.instr
      rw [hin]
      unfold stockOrNA stockInstrumentName
      cases hx : stockInstrument name with
      | none => exact absurd hx hk
      | some x => rfl

theorem collectGroup_stock (s0 : Score) (ns : List String) : ∀ (stock : List Nat) (s : Score), Made s0 s → (∀ n ∈ ns, s0.namedParts n = []) →
    ∀ r, (collectGroup s [] stock ns).1 = .ok r → r.1 = [] ∧ (stock ≠ [] ∨ ns ≠ [] → r.2 ≠ []) := by
  induction ns with
  | nil =>
    intro stock s m _ r hr
    simp only [collectGroup, Except.ok.injEq] at hr
    subst hr
    exact ⟨rfl, fun h => h.elim id (fun h => absurd rfl h)⟩
  | cons n ns ih =>
    intro stock s m hn r hr
    have hn0 : s.namedParts n = [] := by rw [m.named]; exact hn n (List.mem_cons_self ..)
    have hns : ∀ n ∈ ns, s0.namedParts n = [] := fun k hk => hn k (List.mem_cons_of_mem _ hk)
    simp only [collectGroup, hn0] at hr
    rw [if_neg (by simp)] at hr
    split at hr
    · rename_i hu
      have := ih _ s m hns r hr
      exact ⟨this.1, fun _ => this.2 (Or.inl (by simp [hu]))⟩
    · split at hr
      · simp at hr
      · rename_i id s' hnp
        have := ih _ s' (m.step hnp) hns r hr
        exact ⟨this.1, fun _ => this.2 (Or.inl (by simp))⟩

theorem newGroup_length (s0 : Score) (ns : List String) : ∀ (acc : List Nat) (s : Score), Made s0 s → (∀ i ∈ acc, i < s.next) →
    ∀ r, (newGroup s acc ns).1 = .ok r → r.length = acc.length + ns.length := by
  induction ns with
  | nil =>
    intro acc s m h r hr
    simp only [newGroup, Except.ok.injEq] at hr
    subst hr; rfl
  | cons n ns ih =>
    intro acc s m h r hr
    simp only [newGroup] at hr
    split at hr
    · simp at hr
    · rename_i id s' hn
      have hid : id = s.next ∧ s'.next = s.next + 1 := by
        obtain ⟨_, _, e, p, _, _, _, _, _, _, _, _, _, _, _, _, _, _, _, _, _, _, _, _, rfl⟩ := newPart_eq hn
        exact ⟨e, rfl⟩
      have hc : acc.contains id = false := by
        rw [Bool.eq_false_iff]; intro hc
        have := h id (by simpa using hc); omega
      rw [hc] at hr
      have := ih (acc ++ [id]) s' (m.step hn) (by
        intro i hi
        rcases List.mem_append.1 hi with hi | hi
        · have := h i hi; omega
        · simp only [List.mem_singleton] at hi; omega) r (by simpa using hr)
      rw [this]; simp; omega

/-- C20: a group of instruments (none of the names being an alias) declared with an alias consists of new instances, one for each name. -/
theorem c20_group_new (s : Score) (names : List String) (alias : String) (hr : Reachable s) (ha : alias ≠ "") (hl : 2 ≤ names.length)
    (h0 : ∀ n ∈ names, aliased s n = []) (h : (update [.partDecl names alias] s).err = none) :
    (playing (update [.partDecl names alias] s).s).length = names.length ∧
    aliased (update [.partDecl names alias] s).s alias = playing (update [.partDecl names alias] s).s ∧
    ∀ o ∈ playing (update [.partDecl names alias] s).s, o ∉ instances s := by
  have g := hr.all_good
  rw [upd_partDecl] at *
  obtain ⟨v, wv, hv, hc⟩ := partDeclUpd_cases names alias s g
  rcases hc with ⟨e, t, _, _, he, _⟩ | ⟨parts, t, hd, m, ⟨he, _⟩ | ⟨_, d⟩⟩
  · rw [h] at he; cases he
  · exact absurd h he
  · have hn : ∀ n ∈ names, v.namedParts n = [] := fun n hn => (named_nil hv n).2 (h0 n hn)
    have hp : playing (partDeclUpd names alias s).s = origins t parts := by
      unfold playing; rw [d.current]; exact d.origins parts
    have key : (∀ i ∈ parts, ∃ n, NewFor v t n i) ∧ parts.length = names.length := by
      unfold determineParts at hd
      split at hd
      · simp at hl
      split at hd
      · simp at hd
      obtain ⟨m1, _⟩ := collectGroup_made v wv names [] [] v (.refl wv) (by simp) (by simp)
      have hst := collectGroup_stock v names [] v (.refl wv) hn
      split at hd
      · simp at hd
      · rename_i named stock s1 hcg
        rw [hcg] at m1 hst
        obtain ⟨h1, h2⟩ := hst _ rfl
        simp only at h1 h2
        have h2 := h2 (Or.inr (by intro h; subst h; simp at hl))
        rw [if_neg (by simp [h1]), if_pos ⟨ha, h2⟩] at hd
        obtain ⟨_, hm⟩ := newGroup_made v names [] s1 m1 (by simp)
        have hlen := newGroup_length v names [] s1 m1 (by simp)
        rw [hd] at hm hlen
        exact ⟨hm parts rfl, by simpa using hlen parts rfl⟩
    refine ⟨by rw [hp]; simp [origins, key.2], ?_, ?_⟩
    · rw [hp, ← d.origins]
      unfold aliased
      rcases d.aliases with ⟨_, h1⟩ | ⟨_, h1, _⟩
      · exact absurd h1 ha
      · rw [h1 alias (dotted_ne alias), if_pos rfl]; rfl
    · intro o ho hm
      rw [hp] at ho
      obtain ⟨i, hi, rfl⟩ := List.mem_map.1 ho
      obtain ⟨n, hnf⟩ := key.1 i hi
      have : (t.heap i).origin ∈ (partView s).map (·.1) := by
        unfold instances at hm
        unfold partView
        rw [List.map_map]; exact hm
      rw [← hv.1, ← d.made.view.1] at this
      unfold partView at this
      rw [List.map_map] at this
      obtain ⟨j, hj, e⟩ := List.mem_map.1 this
      exact hnf.fresh.origin_new d.made.wf hj e

/-- C20: the alias of one instrument or group cannot be given to another instrument. -/
theorem c20_no_redefinition (s : Score) (name alias : String) (hr : Reachable s) (ha : alias ≠ "") (h : aliased s alias ≠ []) :
    (update [.partDecl [name] alias] s).err ≠ none ∧ ∀ a, aliased (update [.partDecl [name] alias] s).s a = aliased s a := by
  have g := hr.all_good
  rw [upd_partDecl]
  have he : (partDeclUpd [name] alias s).err ≠ none := by
    obtain ⟨v, wv, hv, hc⟩ := partDeclUpd_cases [name] alias s g
    rcases hc with ⟨e, t, _, _, he, _⟩ | ⟨parts, t, hd, m, ⟨he, _⟩ | ⟨_, d⟩⟩
    · rw [he]; simp
    · exact he
    · have hn : v.namedParts alias ≠ [] := fun hx => h ((named_nil hv alias).1 hx)
      simp only [determineParts, determineSingle, ha, hn, ne_eq, not_false_eq_true, true_and, if_true] at hd
      split at hd <;> simp at hd
  exact ⟨he, fun a => failed_aliases g _ _ he a⟩

/-- C20: no instance is active twice. -/
theorem c20_no_duplicates (s : Score) (names : List String) (alias : String) (hr : Reachable s) :
    (playing (update [.partDecl names alias] s).s).Nodup := by
  have g := hr.all_good
  exact ((update_all_steps _ s g).good g).wf.cur_nodup

/-- C20: an alias refers to the same instances until the end, if no declaration defines it again. -/
theorem c20_alias_refers_partial (s t : Score) (alias : String) (hr : Reachable s) (h : aliased s alias ≠ []) (hh : History s t) :
    aliased t alias = aliased s alias ∧
    ((update [.partDecl [alias] ""] t).err = none → playing (update [.partDecl [alias] ""] t).s = aliased s alias) := by
  obtain ⟨c, g⟩ := hh.continues hr.all_good
  have e : aliased t alias = aliased s alias := by
    rw [aliased_view] at h ⊢
    rw [aliased_view]
    cases hl : (aliasView s).lookup alias with
    | none => rw [hl] at h; exact absurd rfl h
    | some v => rw [c.alias _ _ hl]
  refine ⟨e, fun ho => ?_⟩
  rw [upd_partDecl] at *
  obtain ⟨v, wv, hv, hc⟩ := partDeclUpd_cases [alias] "" t g
  rcases hc with ⟨e, t, _, _, he, _⟩ | ⟨parts, t', hd, m, ⟨he, _⟩ | ⟨_, d⟩⟩
  · rw [ho] at he; cases he
  · exact absurd ho he
  · have hn : v.namedParts alias ≠ [] := fun hx => h (by rw [← e]; exact (named_nil hv alias).1 hx)
    simp only [determineParts, determineSingle, hn, ne_eq, not_true_eq_false, false_and, if_false, false_or, true_and, not_false_eq_true, if_true] at hd
    split at hd
    · simp at hd
    · simp only [Prod.mk.injEq, Except.ok.injEq] at hd
      obtain ⟨rfl, rfl⟩ := hd
      unfold playing
      rw [d.current, ← e, aliased_view, ← hv.2, ← named_view]
      exact d.origins _

/-- C20: if an instrument is used without an alias it cannot be declared with one later, and the other way round. -/
theorem c20_ambiguous_partial (s s2 : Score) (name name' alias : String) (hr : Reachable s) (ha : alias ≠ "")
    (hs : stockInstrumentName name' = stockInstrumentName name) :
    (aliased s name = [] → (update [.partDecl [name] ""] s).err = none → History (update [.partDecl [name] ""] s).s s2 →
      (update [.partDecl [name'] alias] s2).err ≠ none) ∧
    ((update [.partDecl [name] alias] s).err = none → History (update [.partDecl [name] alias] s).s s2 → '.' ∉ name'.toList →
      (update [.partDecl [name'] ""] s2).err ≠ none) := by
  have g := hr.all_good
  have hst : stockOrNA name' = stockOrNA name := by unfold stockOrNA; rw [hs]
  constructor
  · intro h0 h1 hh
    have g1 := (update_all_steps [.partDecl [name] ""] s g).good g
    obtain ⟨c, g2⟩ := hh.continues g1
    rw [upd_partDecl] at h1 c ⊢
    rw [upd_partDecl] at *
    obtain ⟨a1, a2, _⟩ := declared_unnamed g name h0 h1
    have e := c.unnamed (stockOrNA name) (by rw [← a1]; exact a2)
    obtain ⟨v, wv, hv, hc⟩ := partDeclUpd_cases [name'] alias s2 g2
    rcases hc with ⟨e, t, _, _, he, _⟩ | ⟨parts, t, hd, m, ⟨he, _⟩ | ⟨_, d⟩⟩
    · rw [he]; simp
    · exact he
    · have hu : v.unnamedParts name' ≠ [] := by
        intro hx
        have := (unnamed_nil wv name').1 hx
        rw [hv.1, hv.2, hst, e, ← a1] at this
        exact a2 this
      simp only [determineParts, determineSingle, ha, hu, ne_eq, not_false_eq_true, true_and, if_true, false_and, or_false] at hd
      split at hd
      · simp at hd
      split at hd <;> simp at hd
  · intro h1 hh hdot
    obtain ⟨o, p1, p2, p3, p4, p5⟩ := c20_alias_new s name alias hr ha h1
    have g1 := (update_all_steps [.partDecl [name] alias] s g).good g
    obtain ⟨c, g2⟩ := hh.continues g1
    rw [upd_partDecl]
    obtain ⟨v, wv, hv, hc⟩ := partDeclUpd_cases [name'] "" s2 g2
    rcases hc with ⟨e, t, _, _, he, _⟩ | ⟨parts, t, hd, m, ⟨he, _⟩ | ⟨_, d⟩⟩
    · rw [he]; simp
    · exact he
    · have hu : v.aliasedStockInstruments name' ≠ [] := by
        rw [aliasedStock_view wv, hv.1, hv.2, hst]
        refine c.hasNamed _ ?_
        generalize (update [.partDecl [name] alias] s).s = u at *
        rw [aliased_view] at p2
        cases hl : (aliasView u).lookup alias with
        | none => rw [hl] at p2; cases p2
        | some x =>
          rw [hl] at p2
          simp only [Option.getD_some] at p2
          refine ⟨(alias, x), alias_lookup_mem _ _ _ hl, o, p2, ?_⟩
          obtain ⟨i, hi, hio⟩ := List.mem_map.1 p4
          refine List.mem_map.2 ⟨i, hi, ?_⟩
          have := g1.wf.org_instr i (g1.wf.parts_lt i hi)
          rw [hio] at this ⊢
          rw [← this]
          unfold stockOrNA
          rw [p5]; rfl
      have hda : dotAccess name' = false := by
        unfold dotAccess; rw [Bool.eq_false_iff]; intro hx; exact hdot (by simpa using hx)
      simp only [determineParts, determineSingle, hu, hda, ne_eq, not_true_eq_false, false_and, if_false, false_or, not_false_eq_true,
        true_and, if_true] at hd
      simp at hd

/-- Two instances, one of them with an alias; the first is declared again after a note and another declaration. -/
example : Reachable (update demo newScore).s ∧ aliased newScore "piano" = [] ∧
    aliased (update demo newScore).s "v" = [1] ∧ playing (update demo newScore).s = [1] ∧
    (update [.partDecl ["piano"] ""] (update demo newScore).s).err = none ∧
    playing (update [.partDecl ["piano"] ""] (update demo newScore).s).s = [0] :=
  ⟨⟨demo, rfl⟩, by decide +kernel⟩

example : History newScore (update [.partDecl ["violin"] "v"] (update [.leaf (.rest [])] (update [.partDecl ["piano"] ""] newScore).s).s).s :=
  .declare _ _ (.event _ (.declare _ _ (.start _) (fun h => absurd rfl h)) trivial) (fun _ => by
    have : (update [.leaf (.rest [])] (update [.partDecl ["piano"] ""] newScore).s).s.aliases = [] := by decide +kernel
    intro a ha; rw [this] at ha; cases ha)

/-- A group may define an alias again: the alias `v` belonged to a violin, and now to a piano and a flute. -/
theorem c20_group_redefines_witness :
    ∃ program, (update program newScore).err = none ∧ aliased (update program newScore).s "v" = [0] ∧
      (update [.partDecl ["piano", "flute"] "v"] (update program newScore).s).err = none ∧
      aliased (update [.partDecl ["piano", "flute"] "v"] (update program newScore).s).s "v" = [3, 4] :=
  ⟨[.partDecl ["violin"] "v"], by decide +kernel⟩

/-- An alias with a dot may be taken over by a declaration of another alias. -/
theorem c20_dotted_witness :
    ∃ program, (update program newScore).err = none ∧ aliased (update program newScore).s "v.piano" = [0] ∧
      (update [.partDecl ["piano"] "v"] (update program newScore).s).err = none ∧
      aliased (update [.partDecl ["piano"] "v"] (update program newScore).s).s "v.piano" = [1] :=
  ⟨[.partDecl ["violin"] "v.piano"], by decide +kernel⟩

/-- An instrument may be used without an alias and with one, if the latter is that of a group. -/
theorem c20_group_ambiguous_witness :
    ∃ program, (update program newScore).err = none ∧ playing (update program newScore).s = [0] ∧
      (update [.partDecl ["piano", "flute"] "v"] (update program newScore).s).err = none :=
  ⟨[.partDecl ["piano"] ""], by decide +kernel⟩

end Alda
