import Verif.Spec.Parts
import Verif.Lemmas.Cells
/-!
Which instances and aliases there are, and how declarations change them.
-/
namespace Alda

variable {L : Leaf → Prop}

/-- Instances in the score with their kind of instrument. -/
def partView (s : Score) : List (Nat × String) := s.parts.map (fun i => ((s.heap i).origin, (s.heap i).instr.name))

/-- Aliases with their instances. -/
def aliasView (s : Score) : List (String × List Nat) := s.aliases.map (fun a => (a.1, origins s a.2))

structure SameView (s t : Score) : Prop where
  parts : partView t = partView s
  aliases : aliasView t = aliasView s

theorem SameView.refl (s : Score) : SameView s s := ⟨rfl, rfl⟩
theorem SameView.trans {s t u : Score} (h : SameView s t) (h' : SameView t u) : SameView s u :=
  ⟨h'.1.trans h.1, h'.2.trans h.2⟩

/-- The same lists, and the parts in them are the same instances. -/
theorem sameView_stable {s t : Score} (w : WF s) (hp : t.parts = s.parts) (ha : t.aliases = s.aliases)
    (h : ∀ i < s.next, (t.heap i).origin = (s.heap i).origin ∧ (t.heap i).instr = (s.heap i).instr) : SameView s t := by
  constructor
  · unfold partView
    rw [hp]
    refine List.map_congr_left (fun i hi => ?_)
    have := h i (w.parts_lt i hi)
    rw [this.1, this.2]
  · unfold aliasView
    rw [ha]
    refine List.map_congr_left (fun a hm => ?_)
    rw [origins_congr (fun i hi => (h i (w.parts_lt i (w.alias_parts a hm i hi))).1)]

theorem newPart_view {name : String} {s : Score} {id : Nat} {s' : Score} (w : WF s) (h : newPart name s = some (id, s')) :
    SameView s s' := by
  have st := (Step.stable (L := fun _ => True) (D := True) (.newPart trivial name h) w).2
  obtain ⟨_, _, _, _, e⟩ := newPart_rest h
  exact sameView_stable w (by rw [e]) (by rw [e]) (fun i hi => ⟨(st i hi).1, (st i hi).2.1⟩)

theorem replaceByOrigin_instr (s : Score) (w : WF s) (o v : Nat) (hv : v < s.next) (ho : (s.heap v).origin = o) (l : List Nat) (hl : ∀ i ∈ l, i < s.next) :
    (replaceByOrigin s o v l).map (fun i => ((s.heap i).origin, (s.heap i).instr.name)) =
      l.map (fun i => ((s.heap i).origin, (s.heap i).instr.name)) := by
  unfold replaceByOrigin
  rw [List.map_map]
  refine List.map_congr_left (fun i hi => ?_)
  simp only [Function.comp]
  split
  · rename_i h
    have h' : (s.heap i).origin = o := by simpa using h
    have e1 := w.org_instr v hv
    have e2 := w.org_instr i (hl i hi)
    rw [ho] at e1; rw [h'] at e2
    rw [ho, h', ← e1, ← e2]
  · rfl

theorem voiceEndAt_view (i : Nat) (s : Score) (w : WF s) : SameView s (voiceEndAt i s).s := by
  rcases voiceEndAt_cases i s with h | ⟨id, v, num, e⟩
  · rw [h]; exact .refl s
  · obtain ⟨hm, hidlt, hvlt, hvo⟩ := e.lt w
    have hin : ∀ j, ((voiceEndAt i s).s.heap j).instr = (s.heap j).instr := by
      intro j; rw [e.heap]; split
      · rename_i h; rw [h]
      · rfl
    constructor
    · unfold partView
      rw [e.parts, ← replaceByOrigin_instr s w (s.heap id).origin v hvlt hvo s.parts w.parts_lt]
      refine List.map_congr_left (fun j _ => ?_)
      rw [e.origin, hin]
    · unfold aliasView
      rw [e.aliases, List.map_map]
      refine List.map_congr_left (fun a ha => ?_)
      simp only [Function.comp]
      rw [← show origins s (replaceByOrigin s (s.heap id).origin v a.2) = origins s a.2 from replaceByOrigin_origins s _ v hvo _]
      rw [origins_congr (fun j _ => e.origin j)]

theorem Step.view {s t : Score} (h : Step L False s t) (w : WF s) : SameView s t := by
  have st := (h.stable w).2
  have shape : ∀ {u : Score}, SameShape s u → SameView s u := fun hh =>
    sameView_stable w hh.parts hh.aliases (fun i _ => ⟨(hh.cells i).origin, (hh.cells i).instr⟩)
  have same : t.parts = s.parts → t.aliases = s.aliases → SameView s t := fun a b =>
    sameView_stable w a b (fun i hi => ⟨(st i hi).1, (st i hi).2.1⟩)
  cases h with
  | attr hid hL hu => exact shape (SameShape.setPart ((updatePart_identity hu).override _))
  | globals hid => exact shape (applyGlobalsPart_shape _ s)
  | record o u hL => exact same rfl rfl
  | emit d a hid ha hn hd hc => exact shape (emitted_shape _ _ _ _ _ _)
  | timing o l t d r hid => exact same rfl rfl
  | chordMode b => exact same rfl rfl
  | marker n o => exact same rfl rfl
  | setVar n es hes => exact same rfl rfl
  | template hid hv ht => exact same rfl rfl
  | @newVoice id t n hid ht hn =>
    obtain ⟨_, _, _, h⟩ := addVoice_rest id n s
    exact same (by rw [h]) (by rw [h])
  | enterVoice hid hv => exact same rfl rfl
  | endVoices i => exact voiceEndAt_view i s w
  | newPart hD name h => exact hD.elim
  | declare hD => exact hD.elim

theorem Steps.view {s t : Score} (h : Steps L False s t) (w : WF s) : SameView s t ∧ WF t := by
  induction h with
  | refl => exact ⟨.refl _, w⟩
  | tail _ hst ih => exact ⟨ih.1.trans (hst.view ih.2), hst.wf ih.2⟩

theorem voiceEndUpd_view (s : Score) (w : WF s) : SameView s (voiceEndUpd s).s ∧ WF (voiceEndUpd s).s :=
  (voiceEndUpd_steps (L := fun _ => True) s).view w

theorem voiceEndUpd_ok (s : Score) : (voiceEndUpd s).err = none := by
  unfold voiceEndUpd
  generalize List.range s.current.length = l
  induction l generalizing s with
  | nil => rfl
  | cons i l ih =>
    simp only [forIds]
    have : (voiceEndAt i s).err = none := by
      simp only [voiceEndAt]
      split
      · rfl
      split <;> rfl
    unfold Out.andThen
    rw [this]
    exact ih _

/-! ### Looking up parts depends on the view only -/

/-- Instances that are in no alias. -/
def unnamedView (pv : List (Nat × String)) (av : List (String × List Nat)) (stock : String) : List Nat :=
  (pv.filter (fun p => !(av.any (fun a => a.2.contains p.1)) && p.2 == stock)).map (·.1)

theorem origin_inj {s : Score} (w : WF s) {i j : Nat} (hi : i ∈ s.parts) (hj : j ∈ s.parts)
    (h : (s.heap i).origin = (s.heap j).origin) : i = j := by
  exact inj_of_nodup_map w.parts_nodup hi hj h

theorem alias_any {s : Score} (w : WF s) {i : Nat} (hi : i ∈ s.parts) :
    s.aliases.any (fun a => a.2.contains i) = (aliasView s).any (fun a => a.2.contains (s.heap i).origin) := by
  unfold aliasView
  rw [List.any_map]
  rw [Bool.eq_iff_iff]
  simp only [List.any_eq_true, Function.comp, List.contains_iff_mem, origins, List.mem_map]
  constructor
  · rintro ⟨a, ha, h⟩; exact ⟨a, ha, i, h, rfl⟩
  · rintro ⟨a, ha, j, hj, h⟩
    have := origin_inj w (w.alias_parts a ha j hj) hi h
    subst this; exact ⟨a, ha, hj⟩

theorem unnamed_view {s : Score} (w : WF s) (n : String) :
    origins s (s.unnamedParts n) = unnamedView (partView s) (aliasView s) (stockOrNA n) := by
  unfold unnamedView partView origins Score.unnamedParts
  rw [List.filter_map, List.map_map]
  rw [List.filter_congr (q := (fun p : Nat × String => !(aliasView s).any (fun a => a.2.contains p.1) && p.2 == stockOrNA n) ∘
    fun i => ((s.heap i).origin, (s.heap i).instr.name))]
  · rfl
  · intro i hi
    simp only [Function.comp]
    rw [alias_any w hi]

theorem lookup_map_snd {α β γ : Type} [BEq α] (f : β → γ) (l : List (α × β)) (k : α) :
    (l.map (fun a => (a.1, f a.2))).lookup k = (l.lookup k).map f := by
  induction l with
  | nil => rfl
  | cons x l ih =>
    obtain ⟨m, v⟩ := x
    simp only [List.map_cons, List.lookup]
    split
    · rfl
    · exact ih

theorem named_view (s : Score) (n : String) : origins s (s.namedParts n) = ((aliasView s).lookup n).getD [] := by
  unfold aliasView Score.namedParts
  rw [lookup_map_snd (origins s)]
  cases s.aliases.lookup n <;> rfl

theorem aliased_view (s : Score) (n : String) : aliased s n = ((aliasView s).lookup n).getD [] := by
  unfold aliased aliasView
  rw [lookup_map_snd (origins s)]
  cases s.aliases.lookup n <;> rfl

theorem origins_nil {s : Score} {l : List Nat} : origins s l = [] ↔ l = [] := List.map_eq_nil_iff

/-- Some alias belongs to a single instance of this kind of instrument. -/
def HasNamed (pv : List (Nat × String)) (av : List (String × List Nat)) (stock : String) : Prop :=
  ∃ a ∈ av, ∃ o, a.2 = [o] ∧ (o, stock) ∈ pv

theorem aliasedStock_view {s : Score} (w : WF s) (n : String) :
    s.aliasedStockInstruments n ≠ [] ↔ HasNamed (partView s) (aliasView s) (stockOrNA n) := by
  unfold Score.aliasedStockInstruments HasNamed
  rw [Ne, List.filterMap_eq_nil_iff]
  constructor
  · intro h
    simp only [Classical.not_forall] at h
    obtain ⟨a, ha, h⟩ := h
    split at h
    · rename_i id hid
      split at h
      · rename_i hn
        refine ⟨(a.1, origins s a.2), List.mem_map.2 ⟨a, ha, rfl⟩, (s.heap id).origin, by rw [hid]; rfl, ?_⟩
        refine List.mem_map.2 ⟨id, w.alias_parts a ha id (by rw [hid]; exact List.mem_singleton_self _), ?_⟩
        rw [show (s.heap id).instr.name = stockOrNA n by simpa using hn]
      · exact absurd rfl h
    · exact absurd rfl h
  · rintro ⟨a', ha', o, ho, hp⟩ h
    obtain ⟨a, ha, rfl⟩ := List.mem_map.1 ha'
    obtain ⟨i, hi, he⟩ := List.mem_map.1 hp
    have h' := h a ha
    simp only [Prod.mk.injEq] at he
    obtain ⟨b, bs⟩ : ∃ b, a.2 = [b] := by
      have ho' : origins s a.2 = [o] := ho
      revert ho'
      generalize a.2 = l
      intro ho'
      rcases l with _ | ⟨b, _ | ⟨c, l⟩⟩
      · simp [origins] at ho'
      · exact ⟨b, rfl⟩
      · simp [origins] at ho'
    rw [bs] at h'
    simp only at h'
    have hb : b = i := by
      refine origin_inj w (w.alias_parts a ha b (by rw [bs]; exact List.mem_singleton_self _)) hi ?_
      simp only [bs, origins, List.map_cons, List.map_nil, List.cons.injEq, and_true] at ho
      rw [ho, he.1]
    subst hb
    rw [he.2] at h'
    simp at h'

/-! ### The parts found by a declaration -/

/-- A new instance for `name`, found in a score that looked like `s`. -/
structure NewFor (s t : Score) (name : String) (id : Nat) : Prop where
  fresh : Fresh t id
  instr : (t.heap id).instr.name = stockOrNA name
  named : (t.heap id).name = name
  later : s.next ≤ id

theorem newPart_for {name : String} {s s0 : Score} {id : Nat} {s' : Score} (w : WF s) (hs : s0.next ≤ s.next)
    (h : newPart name s = some (id, s')) : NewFor s0 s' name id := by
  have hf := newPart_fresh w h
  obtain ⟨instr, hi, e, p, _, _, hin, hnm, _, _, _, _, _, _, _, _, _, _, _, _, _, _, _, _, rfl⟩ := newPart_eq h
  subst e
  refine ⟨hf, ?_, ?_, hs⟩
  · simp only [if_true, hin, stockOrNA, stockInstrumentName, hi, Option.map_some, Option.getD_some]
  · simp only [if_true, hnm]

theorem NewFor.keep {s t u : Score} {name n : String} {id j : Nat} (h : NewFor s t name id) (w : WF t) (hn : newPart n t = some (j, u)) :
    NewFor s u name id := by
  have hf := newPart_keeps_fresh w hn h.fresh
  have st := (Step.stable (L := fun _ => True) (D := True) (.newPart trivial n hn) w).2 id h.fresh.lt
  exact ⟨hf, by rw [st.2.1]; exact h.instr, by rw [st.2.2]; exact h.named, h.later⟩

/-- Scores reached from `s` by making parts. -/
structure Made (s t : Score) : Prop where
  wf : WF t
  view : SameView s t
  parts : t.parts = s.parts
  aliases : t.aliases = s.aliases
  next : s.next ≤ t.next

theorem Made.refl {s : Score} (w : WF s) : Made s s := ⟨w, .refl s, rfl, rfl, Nat.le_refl _⟩

theorem Made.step {s t u : Score} {n : String} {j : Nat} (h : Made s t) (hn : newPart n t = some (j, u)) : Made s u := by
  have v := newPart_view h.wf hn
  have st := (Step.stable (L := fun _ => True) (D := True) (.newPart trivial n hn) h.wf).1
  obtain ⟨_, _, _, _, e⟩ := newPart_rest hn
  exact ⟨newPart_wf h.wf hn, h.view.trans v, by rw [← h.parts, e], by rw [← h.aliases, e], Nat.le_trans h.next st⟩

theorem Made.unnamed {s t : Score} (h : Made s t) (w : WF s) (n : String) : t.unnamedParts n = [] ↔ s.unnamedParts n = [] := by
  have h1 := origins_nil (s := t) (l := t.unnamedParts n)
  have h2 := origins_nil (s := s) (l := s.unnamedParts n)
  rw [unnamed_view h.wf, h.view.1, h.view.2, ← unnamed_view w] at h1
  exact h1.symm.trans h2

theorem Made.named {s t : Score} (h : Made s t) (n : String) : t.namedParts n = s.namedParts n := by
  unfold Score.namedParts; rw [h.aliases]

theorem namedParts_alias {s : Score} {n : String} {i : Nat} (h : i ∈ s.namedParts n) : ∃ a ∈ s.aliases, i ∈ a.2 := by
  unfold Score.namedParts at h
  cases hl : s.aliases.lookup n with
  | none => rw [hl] at h; simp at h
  | some v => rw [hl] at h; exact ⟨_, alias_lookup_mem _ _ _ hl, h⟩

theorem collectGroup_made (s0 : Score) (w0 : WF s0) (ns : List String) : ∀ (named stock : List Nat) (s : Score), Made s0 s →
    (∀ i ∈ named, ∃ a ∈ s0.aliases, i ∈ a.2) →
    (∀ i ∈ stock, i ∈ s0.parts ∨ ∃ n, s0.unnamedParts n = [] ∧ NewFor s0 s n i) →
    Made s0 (collectGroup s named stock ns).2 ∧
    ∀ r, (collectGroup s named stock ns).1 = .ok r →
      (∀ i ∈ r.1, ∃ a ∈ s0.aliases, i ∈ a.2) ∧
      (∀ i ∈ r.2, i ∈ s0.parts ∨ ∃ n, s0.unnamedParts n = [] ∧ NewFor s0 (collectGroup s named stock ns).2 n i) := by
  induction ns with
  | nil =>
    intro named stock s m h1 h2
    refine ⟨m, ?_⟩
    intro r hr
    simp only [collectGroup, Except.ok.injEq] at hr
    subst hr
    exact ⟨h1, h2⟩
  | cons n ns ih =>
    intro named stock s m h1 h2
    simp only [collectGroup]
    split
    · refine ih _ _ s m ?_ h2
      intro i hi
      rcases List.mem_append.1 hi with hi | hi
      · exact h1 i hi
      · rw [m.named] at hi; exact namedParts_alias hi
    · split
      · refine ih _ _ s m h1 ?_
        intro i hi
        rcases List.mem_append.1 hi with hi | hi
        · exact h2 i hi
        · left; rw [← m.parts]; exact (unnamedParts_ok s m.wf n).2 i hi
      · rename_i hu
        split
        · exact ⟨m, fun r hr => by simp at hr⟩
        · rename_i id s' hn
          refine ih _ _ s' (m.step hn) h1 ?_
          intro i hi
          rcases List.mem_append.1 hi with hi | hi
          · rcases h2 i hi with h | ⟨k, hk, h⟩
            · exact Or.inl h
            · exact Or.inr ⟨k, hk, h.keep m.wf hn⟩
          · simp only [List.mem_singleton] at hi
            subst hi
            refine Or.inr ⟨n, (m.unnamed w0 n).1 ?_, newPart_for m.wf m.next hn⟩
            exact Classical.not_not.1 hu

theorem newGroup_made (s0 : Score) (ns : List String) : ∀ (acc : List Nat) (s : Score), Made s0 s →
    (∀ i ∈ acc, ∃ n, NewFor s0 s n i) →
    Made s0 (newGroup s acc ns).2 ∧ ∀ r, (newGroup s acc ns).1 = .ok r → ∀ i ∈ r, ∃ n, NewFor s0 (newGroup s acc ns).2 n i := by
  induction ns with
  | nil =>
    intro acc s m h
    refine ⟨m, fun r hr => ?_⟩
    simp only [newGroup, Except.ok.injEq] at hr
    subst hr; exact h
  | cons n ns ih =>
    intro acc s m h
    simp only [newGroup]
    split
    · exact ⟨m, fun r hr => by simp at hr⟩
    · rename_i id s' hn
      refine ih _ s' (m.step hn) ?_
      intro i hi
      have : i ∈ acc ∨ i = id := by
        split at hi
        · exact Or.inl hi
        · simpa using hi
      rcases this with hi | hi
      · obtain ⟨k, hk⟩ := h i hi; exact ⟨k, hk.keep m.wf hn⟩
      · subst hi; exact ⟨n, newPart_for m.wf m.next hn⟩

/-- What a declaration finds. -/
structure Found (s t : Score) (alias : String) (parts : List Nat) : Prop where
  plain : alias = "" → ∀ i ∈ parts, i ∈ s.parts ∨ ∃ n, s.unnamedParts n = [] ∧ NewFor s t n i
  named : alias ≠ "" → ∀ i ∈ parts, (∃ a ∈ s.aliases, i ∈ a.2) ∨ ∃ n, NewFor s t n i

theorem onlyNewPart_made {name : String} {s : Score} (w : WF s) : Made s (onlyNewPart name s).2 ∧
    ∀ r, (onlyNewPart name s).1 = .ok r → ∃ i, r = [i] ∧ NewFor s (onlyNewPart name s).2 name i := by
  simp only [onlyNewPart]
  split
  · exact ⟨.refl w, fun r hr => by simp at hr⟩
  · rename_i id s' hn
    refine ⟨(Made.refl w).step hn, fun r hr => ?_⟩
    simp only [Except.ok.injEq] at hr
    subst hr
    exact ⟨id, rfl, newPart_for w (Nat.le_refl _) hn⟩

theorem determineSingle_made (name alias : String) (s : Score) (w : WF s) : Made s (determineSingle name alias s).2 ∧
    ∀ r, (determineSingle name alias s).1 = .ok r → Found s (determineSingle name alias s).2 alias r := by
  have err : ∀ e : Err, Made s ((.error e, s) : PartsResult).2 ∧
    ∀ r, ((.error e, s) : PartsResult).1 = .ok r → Found s ((.error e, s) : PartsResult).2 alias r :=
    fun e => ⟨.refl w, fun r hr => by simp at hr⟩
  obtain ⟨m, hm⟩ := onlyNewPart_made (name := name) w
  simp only [determineSingle]
  split
  · exact err _
  split
  · exact err _
  split
  · exact err _
  split
  · rename_i ha
    refine ⟨m, fun r hr => ?_⟩
    obtain ⟨i, rfl, hi⟩ := hm r hr
    exact ⟨fun h => absurd h ha, fun _ j hj => by simp only [List.mem_singleton] at hj; subst hj; exact Or.inr ⟨name, hi⟩⟩
  rename_i ha
  have ha : alias = "" := Classical.not_not.1 ha
  split
  · refine ⟨.refl w, fun r hr => ?_⟩
    simp only [Except.ok.injEq] at hr
    subst hr
    exact ⟨fun _ i hi => Or.inl ((namedParts_ok s w name).2 i hi), fun h => absurd ha h⟩
  split
  · refine ⟨.refl w, fun r hr => ?_⟩
    simp only [Except.ok.injEq] at hr
    subst hr
    exact ⟨fun _ i hi => Or.inl ((unnamedParts_ok s w name).2 i hi), fun h => absurd ha h⟩
  · rename_i hu
    refine ⟨m, fun r hr => ?_⟩
    obtain ⟨i, rfl, hi⟩ := hm r hr
    refine ⟨fun _ j hj => ?_, fun h => absurd ha h⟩
    simp only [List.mem_singleton] at hj; subst hj
    exact Or.inr ⟨name, Classical.not_not.1 hu, hi⟩

theorem determineParts_made (names : List String) (alias : String) (s : Score) (w : WF s) : Made s (determineParts names alias s).2 ∧
    ∀ r, (determineParts names alias s).1 = .ok r → Found s (determineParts names alias s).2 alias r := by
  simp only [determineParts]
  split
  · exact determineSingle_made _ alias s w
  split
  · exact ⟨.refl w, fun r hr => by simp at hr⟩
  obtain ⟨m, hm⟩ := collectGroup_made s w names [] [] s (.refl w) (by simp) (by simp)
  split
  · rename_i e s' he
    rw [he] at m
    exact ⟨m, fun r hr => by simp at hr⟩
  · rename_i named stock s' he
    rw [he] at m hm
    simp only at m hm
    obtain ⟨h1, h2⟩ := hm _ rfl
    simp only at h1 h2
    split
    · exact ⟨m, fun r hr => by simp at hr⟩
    split
    · rename_i ha
      obtain ⟨m', hm'⟩ := newGroup_made s names [] s' m (by simp)
      refine ⟨m', fun r hr => ⟨fun h => absurd h ha.1, fun _ i hi => ?_⟩⟩
      exact Or.inr (hm' r hr i hi)
    · rename_i hns
      refine ⟨m, fun r hr => ?_⟩
      simp only [Except.ok.injEq] at hr
      subst hr
      constructor
      · intro _ i hi
        simp only [dedup_mem, List.not_mem_nil, false_or] at hi
        rcases hi with hi | hi
        · obtain ⟨a, ha, hia⟩ := h1 i hi
          exact Or.inl (w.alias_parts a ha i hia)
        · exact h2 i hi
      · intro ha i hi
        simp only [dedup_mem, List.not_mem_nil, false_or] at hi
        rcases hi with hi | hi
        · exact Or.inl (h1 i hi)
        · have : stock = [] := Classical.byContradiction (fun h => hns ⟨ha, h⟩)
          rw [this] at hi; cases hi

/-! ### The effect of a declaration -/

theorem dedup_append (l : List Nat) : ∀ acc, ∃ ex, dedup acc l = acc ++ ex ∧ ∀ x ∈ ex, x ∈ l ∧ x ∉ acc := by
  induction l with
  | nil => intro acc; exact ⟨[], by simp [dedup], by simp⟩
  | cons i is ih =>
    intro acc
    simp only [dedup]
    split
    · obtain ⟨ex, h, hx⟩ := ih acc
      exact ⟨ex, h, fun x hm => ⟨List.mem_cons_of_mem _ (hx x hm).1, (hx x hm).2⟩⟩
    · rename_i hc
      obtain ⟨ex, h, hx⟩ := ih (acc ++ [i])
      refine ⟨i :: ex, by rw [h]; simp, ?_⟩
      intro x hm
      rcases List.mem_cons.1 hm with rfl | hm
      · exact ⟨List.mem_cons_self .., by simpa using hc⟩
      · have := hx x hm
        simp only [List.mem_append, not_or] at this
        exact ⟨List.mem_cons_of_mem _ this.1, this.2.1⟩

theorem lookup_filter_ne {β : Type} (l : List (String × β)) (k a : String) (h : k ≠ a) :
    (l.filter (fun x => x.1 != a)).lookup k = l.lookup k := by
  induction l with
  | nil => rfl
  | cons x l ih =>
    obtain ⟨m, v⟩ := x
    simp only [List.filter_cons]
    split
    · simp only [List.lookup]
      split
      · rfl
      · exact ih
    · rename_i hm
      have : m = a := by simpa using hm
      subst this
      rw [ih]
      simp only [List.lookup]
      have : (k == m) = false := by simpa using h
      rw [this]

theorem lookup_setAlias (as : List (String × List Nat)) (a k : String) (v : List Nat) :
    (setAlias as a v).lookup k = if k = a then some v else as.lookup k := by
  unfold setAlias
  split
  · rename_i h; subst h; simp [List.lookup]
  · rename_i h
    simp only [List.lookup]
    have : (k == a) = false := by simpa using h
    rw [this]
    exact lookup_filter_ne as k a h

/-- The alias itself is not changed by the entries for its members, nor are other aliases. -/
theorem lookup_memberAliases (alias : String) (as : List (String × List Nat)) (id : Nat) (n : String) (ex : List String) (k : String)
    (h : ∀ x, k ≠ alias ++ "." ++ x) : (memberAliases alias as id n ex).lookup k = as.lookup k := by
  unfold memberAliases
  have key : ∀ (ex : List String) (as : List (String × List Nat)),
      (ex.foldl (fun as a => setAlias as (alias ++ "." ++ a) [id]) as).lookup k = as.lookup k := by
    intro ex
    induction ex with
    | nil => intro as; rfl
    | cons e ex ih =>
      intro as
      simp only [List.foldl_cons]
      rw [ih, lookup_setAlias, if_neg (h e)]
  rw [key, lookup_setAlias, if_neg (h n)]

theorem lookup_declAliases (alias : String) (parts : List Nat) (s : Score) (k : String) (ha : alias ≠ "") (h : ∀ x, k ≠ alias ++ "." ++ x) :
    (declAliases alias parts s).lookup k = if k = alias then some parts else s.aliases.lookup k := by
  unfold declAliases
  rw [if_neg ha]
  have key : ∀ (ps : List Nat) (as : List (String × List Nat)),
      (ps.foldl (fun as id => memberAliases alias as id (s.heap id).name (s.aliasesFor id)) as).lookup k = as.lookup k := by
    intro ps
    induction ps with
    | nil => intro as; rfl
    | cons p ps ih =>
      intro as
      simp only [List.foldl_cons]
      rw [ih, lookup_memberAliases _ _ _ _ _ _ h]
  rw [key, lookup_setAlias]

theorem setAlias_keeps {as : List (String × List Nat)} {al : String} {v : List Nat} {a : String × List Nat} (h : a ∈ as) (hn : a.1 ≠ al) :
    a ∈ setAlias as al v :=
  List.mem_cons_of_mem _ (List.mem_filter.2 ⟨h, by simpa using hn⟩)

theorem declAliases_keeps {alias : String} {parts : List Nat} {s : Score} {a : String × List Nat} (h : a ∈ s.aliases) (h1 : a.1 ≠ alias)
    (h2 : ∀ x, a.1 ≠ alias ++ "." ++ x) : a ∈ declAliases alias parts s := by
  unfold declAliases
  split
  · exact h
  · have k1 : ∀ (id : Nat) (ex : List String) (as : List (String × List Nat)), a ∈ as →
        a ∈ ex.foldl (fun as a => setAlias as (alias ++ "." ++ a) [id]) as := by
      intro id ex
      induction ex with
      | nil => intro as h; exact h
      | cons e ex ih => intro as h; exact ih _ (setAlias_keeps h (h2 e))
    have k2 : ∀ (ps : List Nat) (as : List (String × List Nat)), a ∈ as →
        a ∈ ps.foldl (fun as id => memberAliases alias as id (s.heap id).name (s.aliasesFor id)) as := by
      intro ps
      induction ps with
      | nil => intro as h; exact h
      | cons p ps ih => intro as h; exact ih _ (k1 _ _ _ (setAlias_keeps h (h2 _)))
    exact k2 _ _ (setAlias_keeps h h1)

theorem dotted_ne (alias x : String) : alias ≠ alias ++ "." ++ x := by
  intro h
  have := congrArg String.length h
  simp only [String.length_append] at this
  have : ".".length = 1 := by decide
  omega

theorem declareParts_aliases (parts : List Nat) (alias : String) (s : Score) :
    (declareParts parts alias s).aliases = s.aliases ∧ alias = "" ∨ alias ≠ "" ∧
      (∀ k, (∀ x, k ≠ alias ++ "." ++ x) → (declareParts parts alias s).aliases.lookup k = if k = alias then some parts else s.aliases.lookup k) ∧
      (∀ a ∈ s.aliases, a.1 ≠ alias → (∀ x, a.1 ≠ alias ++ "." ++ x) → a ∈ (declareParts parts alias s).aliases) ∧
      (∀ a ∈ (declareParts parts alias s).aliases, a ∈ s.aliases ∨ a.2 = parts ∨ ∃ id ∈ parts, a.2 = [id]) := by
  have e : ∀ t : Score, (markMaster parts t).aliases = t.aliases := by
    intro t; unfold markMaster; split <;> rfl
  by_cases ha : alias = ""
  · left
    refine ⟨?_, ha⟩
    simp only [declareParts, declAliases, ha, if_true, e]
  · right
    refine ⟨ha, ?_, ?_, ?_⟩
    · intro k hk
      simp only [declareParts]
      rw [lookup_declAliases _ _ _ _ ha hk]
      simp only [e]
    · intro a h h1 h2
      simp only [declareParts]
      exact declAliases_keeps (by simpa only [e] using h) h1 h2
    · intro a h
      simp only [declareParts] at h
      have := declAliases_mem h
      simpa only [e] using this

/-- The instances and aliases after a declaration. -/
structure Declared (s t : Score) (alias : String) (parts : List Nat) (u : Score) : Prop where
  wf : WF u
  current : u.current = parts
  heap : ∀ i, (u.heap i).origin = (t.heap i).origin ∧ (u.heap i).instr = (t.heap i).instr
  inScore : u.parts = dedup t.parts parts
  made : Made s t
  found : Found s t alias parts
  aliases : u.aliases = t.aliases ∧ alias = "" ∨ alias ≠ "" ∧
      (∀ k, (∀ x, k ≠ alias ++ "." ++ x) → u.aliases.lookup k = if k = alias then some parts else t.aliases.lookup k) ∧
      (∀ a ∈ t.aliases, a.1 ≠ alias → (∀ x, a.1 ≠ alias ++ "." ++ x) → a ∈ u.aliases) ∧
      (∀ a ∈ u.aliases, a ∈ t.aliases ∨ a.2 = parts ∨ ∃ id ∈ parts, a.2 = [id])

theorem partDeclUpd_cases (names : List String) (alias : String) (s : Score) (g : Good (fun _ => True) True s) :
    ∃ v, WF v ∧ SameView s v ∧
      ((∃ e t, determineParts names alias v = (.error e, t) ∧ Made v t ∧ (partDeclUpd names alias s).err = some e ∧ (partDeclUpd names alias s).s = t) ∨
       (∃ parts t, determineParts names alias v = (.ok parts, t) ∧ Made v t ∧
          ((partDeclUpd names alias s).err ≠ none ∧ (partDeclUpd names alias s).s = t ∨
           (partDeclUpd names alias s).err = none ∧ Declared v t alias parts (partDeclUpd names alias s).s))) := by
  have hv := voiceEndUpd_view s g.wf
  have hok := voiceEndUpd_ok s
  have hwf := ((partDeclUpd_steps (L := fun _ => True) (D := True) trivial names alias s g).good g).wf
  refine ⟨(voiceEndUpd s).s, hv.2, hv.1, ?_⟩
  have hd := determineParts_made names alias (voiceEndUpd s).s hv.2
  revert hwf
  unfold partDeclUpd Out.andThen
  rw [hok]
  simp only
  rcases hx : determineParts names alias (voiceEndUpd s).s with ⟨r, t⟩
  rw [hx] at hd
  cases r with
  | error e => intro _; exact Or.inl ⟨e, t, rfl, hd.1, rfl, rfl⟩
  | ok parts =>
    simp only
    intro hwf
    refine Or.inr ⟨parts, t, rfl, hd.1, ?_⟩
    split
    · exact Or.inl ⟨by simp [Out.fail], rfl⟩
    · rename_i hne
      rw [if_neg hne] at hwf
      refine Or.inr ⟨rfl, hwf, rfl, ?_, declareParts_parts parts alias t, hd.1, hd.2 _ rfl, declareParts_aliases parts alias t⟩
      intro i
      show ((declareParts parts alias t).heap i).origin = _ ∧ ((declareParts parts alias t).heap i).instr = _
      rw [declareParts_heap]
      rcases markMaster_heap parts t i with h | ⟨_, _, h⟩ <;> rw [h] <;> exact ⟨rfl, rfl⟩

/-- New parts are added at the end. -/
theorem Declared.partView {s t : Score} {alias : String} {parts : List Nat} {u : Score} (d : Declared s t alias parts u) :
    ∃ ex : List Nat, Alda.partView u = Alda.partView s ++ ex.map (fun i => ((t.heap i).origin, (t.heap i).instr.name)) ∧
      ∀ x ∈ ex, x ∈ parts ∧ x ∉ s.parts := by
  obtain ⟨ex, h, hx⟩ := dedup_append parts t.parts
  refine ⟨ex, ?_, fun x hm => by rw [← d.made.parts]; exact hx x hm⟩
  rw [← d.made.view.1]
  unfold Alda.partView
  rw [d.inScore, h, List.map_append]
  congr 1 <;> refine List.map_congr_left (fun i _ => ?_) <;> rw [(d.heap i).1, (d.heap i).2]

theorem Declared.origins {s t : Score} {alias : String} {parts : List Nat} {u : Score} (d : Declared s t alias parts u) (l : List Nat) :
    origins u l = origins t l := origins_congr (fun i _ => (d.heap i).1)

/-- An alias keeps its instances. -/
theorem Declared.alias_keeps {s t : Score} {alias : String} {parts : List Nat} {u : Score} (d : Declared s t alias parts u)
    (hn : alias ≠ "" → NewAlias s alias) {k : String} {v : List Nat} (h : (aliasView s).lookup k = some v) : (aliasView u).lookup k = some v := by
  have hs : (aliasView t).lookup k = some v := by rw [d.made.view.2]; exact h
  unfold aliasView at hs ⊢
  rw [lookup_map_snd (Alda.origins t)] at hs
  rw [lookup_map_snd (Alda.origins u)]
  cases hl : t.aliases.lookup k with
  | none => rw [hl] at hs; simp at hs
  | some ids =>
    rw [hl] at hs
    simp only [Option.map_some, Option.some.injEq] at hs
    have hu : u.aliases.lookup k = some ids := by
      rcases d.aliases with ⟨h1, _⟩ | ⟨ha, h1, _⟩
      · rw [h1, hl]
      · have hm := alias_lookup_mem _ _ _ hl
        rw [d.made.aliases] at hm
        have hk := hn ha _ hm
        rw [h1 k hk.2, if_neg hk.1, hl]
    rw [hu]
    simp only [Option.map_some, Option.some.injEq]
    rw [d.origins, hs]

theorem Fresh.origin_new {t : Score} {i : Nat} (f : Fresh t i) (w : WF t) {j : Nat} (hj : j ∈ t.parts) : (t.heap j).origin ≠ (t.heap i).origin := by
  intro h
  rw [f.org] at h
  have := f.only j (w.parts_lt j hj) h
  subst this
  exact f.notPart hj

/-- Instances that are in the score and have no alias stay so, and no other unnamed instances of the same kind are added. -/
theorem Declared.unnamed_keeps {s t : Score} {alias : String} {parts : List Nat} {u : Score} (d : Declared s t alias parts u) (ws : WF s)
    (hn : alias ≠ "" → NewAlias s alias) {stock : String} (h : unnamedView (Alda.partView s) (aliasView s) stock ≠ []) :
    unnamedView (Alda.partView u) (aliasView u) stock = unnamedView (Alda.partView s) (aliasView s) stock := by
  obtain ⟨ex, he, hx⟩ := d.partView
  have wt := d.made.wf
  rw [he]
  unfold unnamedView at h ⊢
  rw [List.filter_append, List.map_append]
  -- the instances declared by an alias
  have entries : ∀ b ∈ aliasView u, b ∈ aliasView s ∨ alias ≠ "" ∧ ∀ o ∈ b.2, ∃ i ∈ parts, o = (t.heap i).origin := by
    intro b hb
    obtain ⟨a, ha, rfl⟩ := List.mem_map.1 hb
    have old : a ∈ t.aliases → (a.1, Alda.origins u a.2) ∈ aliasView s := by
      intro hm
      rw [← d.made.view.2]
      exact List.mem_map.2 ⟨a, hm, by rw [d.origins]⟩
    rcases d.aliases with ⟨h1, _⟩ | ⟨hal, _, _, h3⟩
    · rw [h1] at ha; exact Or.inl (old ha)
    · rcases h3 a ha with hm | hm | ⟨i, hi, hm⟩
      · exact Or.inl (old hm)
      · refine Or.inr ⟨hal, fun o ho => ?_⟩
        simp only at ho
        rw [hm, d.origins] at ho
        obtain ⟨i, hi, rfl⟩ := List.mem_map.1 ho
        exact ⟨i, hi, rfl⟩
      · refine Or.inr ⟨hal, fun o ho => ?_⟩
        simp only at ho
        rw [hm, d.origins] at ho
        simp only [Alda.origins, List.map_cons, List.map_nil, List.mem_singleton] at ho
        exact ⟨i, hi, ho⟩
  have kept : ∀ b ∈ aliasView s, b ∈ aliasView u := by
    intro b hb
    rw [← d.made.view.2] at hb
    obtain ⟨a, ha, rfl⟩ := List.mem_map.1 hb
    rw [← d.origins]
    refine List.mem_map.2 ⟨a, ?_, rfl⟩
    rcases d.aliases with ⟨h1, _⟩ | ⟨hal, _, h2, _⟩
    · rw [h1]; exact ha
    · have hk := hn hal a (by rw [← d.made.aliases]; exact ha)
      exact h2 a ha hk.1 hk.2
  -- old instances
  have e1 : (Alda.partView s).filter (fun p => !((aliasView u).any (fun a => a.2.contains p.1)) && p.2 == stock) =
      (Alda.partView s).filter (fun p => !((aliasView s).any (fun a => a.2.contains p.1)) && p.2 == stock) := by
    refine List.filter_congr (fun p hp => ?_)
    have : (aliasView u).any (fun a => a.2.contains p.1) = (aliasView s).any (fun a => a.2.contains p.1) := by
      rw [Bool.eq_iff_iff]
      simp only [List.any_eq_true, List.contains_iff_mem]
      constructor
      · rintro ⟨b, hb, ho⟩
        rcases entries b hb with hb | ⟨hal, hi⟩
        · exact ⟨b, hb, ho⟩
        · obtain ⟨i, hi, hoi⟩ := hi _ ho
          rcases d.found.named hal i hi with ⟨a, ha, hia⟩ | ⟨n, hf⟩
          · refine ⟨(a.1, Alda.origins t a.2), ?_, ?_⟩
            · rw [← d.made.view.2]; exact List.mem_map.2 ⟨a, by rw [d.made.aliases]; exact ha, rfl⟩
            · rw [hoi]; exact List.mem_map.2 ⟨i, hia, rfl⟩
          · exfalso
            rw [← d.made.view.1] at hp
            obtain ⟨j, hj, rfl⟩ := List.mem_map.1 hp
            exact hf.fresh.origin_new wt hj hoi
      · rintro ⟨b, hb, ho⟩; exact ⟨b, kept b hb, ho⟩
    rw [this]
  -- new instances
  have e2 : (ex.map (fun i => ((t.heap i).origin, (t.heap i).instr.name))).filter
      (fun p => !((aliasView u).any (fun a => a.2.contains p.1)) && p.2 == stock) = [] := by
    rw [List.filter_eq_nil_iff]
    intro p hp
    obtain ⟨i, hi, rfl⟩ := List.mem_map.1 hp
    obtain ⟨hip, hin⟩ := hx i hi
    simp only [Bool.and_eq_true, Bool.not_eq_true', beq_iff_eq, not_and]
    intro hno hst
    by_cases hal : alias = ""
    · rcases d.found.plain hal i hip with hm | ⟨n, hu, hf⟩
      · exact hin hm
      · have e := unnamed_view ws n
        rw [hu] at e
        rw [hf.instr] at hst
        rw [hst] at e
        exact h e.symm
    · have : ((aliasView u).any (fun a => a.2.contains (t.heap i).origin)) = true := by
        rcases d.aliases with ⟨_, h1⟩ | ⟨_, h1, _⟩
        · exact absurd h1 hal
        · have hl := h1 alias (dotted_ne alias)
          rw [if_pos rfl] at hl
          simp only [List.any_eq_true, List.contains_iff_mem]
          refine ⟨(alias, Alda.origins u parts), List.mem_map.2 ⟨_, alias_lookup_mem _ _ _ hl, rfl⟩, ?_⟩
          rw [d.origins]
          exact List.mem_map.2 ⟨i, hip, rfl⟩
      rw [this] at hno
      cases hno
  rw [e1, e2, List.map_nil, List.append_nil]

/-- An alias for a single instance of some kind of instrument remains. -/
theorem Declared.hasNamed_keeps {s t : Score} {alias : String} {parts : List Nat} {u : Score} (d : Declared s t alias parts u)
    (hn : alias ≠ "" → NewAlias s alias) {stock : String} (h : HasNamed (Alda.partView s) (aliasView s) stock) :
    HasNamed (Alda.partView u) (aliasView u) stock := by
  obtain ⟨ex, he, hx⟩ := d.partView
  obtain ⟨b, hb, o, ho, hp⟩ := h
  refine ⟨b, ?_, o, ho, by rw [he]; exact List.mem_append_left _ hp⟩
  rw [← d.made.view.2] at hb
  obtain ⟨a, ha, rfl⟩ := List.mem_map.1 hb
  rw [← d.origins]
  refine List.mem_map.2 ⟨a, ?_, rfl⟩
  rcases d.aliases with ⟨h1, _⟩ | ⟨hal, _, h2, _⟩
  · rw [h1]; exact ha
  · have hk := hn hal a (by rw [← d.made.aliases]; exact ha)
    exact h2 a ha hk.1 hk.2

/-- What a history keeps. -/
structure Continues (s t : Score) : Prop where
  alias : ∀ k v, (aliasView s).lookup k = some v → (aliasView t).lookup k = some v
  unnamed : ∀ stock, unnamedView (partView s) (aliasView s) stock ≠ [] →
    unnamedView (partView t) (aliasView t) stock = unnamedView (partView s) (aliasView s) stock
  hasNamed : ∀ stock, HasNamed (partView s) (aliasView s) stock → HasNamed (partView t) (aliasView t) stock

theorem Continues.refl (s : Score) : Continues s s := ⟨fun _ _ h => h, fun _ _ => rfl, fun _ h => h⟩

theorem Continues.trans {s t u : Score} (h : Continues s t) (h' : Continues t u) : Continues s u :=
  ⟨fun k v e => h'.alias k v (h.alias k v e),
   fun st hs => (h'.unnamed st (by rw [h.unnamed st hs]; exact hs)).trans (h.unnamed st hs),
   fun st hs => h'.hasNamed st (h.hasNamed st hs)⟩

theorem SameView.continues {s t : Score} (h : SameView s t) : Continues s t :=
  ⟨fun k v e => by rw [h.2]; exact e, fun st _ => by rw [h.1, h.2], fun st hs => by rw [h.1, h.2]; exact hs⟩

theorem newAlias_view {s t : Score} (h : SameView s t) {alias : String} (hn : NewAlias s alias) : NewAlias t alias := by
  intro a ha
  have : (a.1, origins t a.2) ∈ aliasView t := List.mem_map.2 ⟨a, ha, rfl⟩
  rw [h.2] at this
  obtain ⟨b, hb, e⟩ := List.mem_map.1 this
  simp only [Prod.mk.injEq] at e
  have := hn b hb
  rw [e.1] at this
  exact this

theorem partDecl_continues (names : List String) (alias : String) (s : Score) (g : Good (fun _ => True) True s)
    (hn : alias ≠ "" → NewAlias s alias) : Continues s (partDeclUpd names alias s).s := by
  obtain ⟨v, wv, hv, h⟩ := partDeclUpd_cases names alias s g
  refine hv.continues.trans ?_
  rcases h with ⟨e, t, _, m, _, hs⟩ | ⟨parts, t, _, m, ⟨_, hs⟩ | ⟨_, d⟩⟩
  · rw [hs]; exact m.view.continues
  · rw [hs]; exact m.view.continues
  · have hn' : alias ≠ "" → NewAlias v alias := fun ha => newAlias_view hv (hn ha)
    exact ⟨fun k x e => d.alias_keeps hn' e, fun st hs => d.unnamed_keeps wv hn' hs, fun st hs => d.hasNamed_keeps hn' hs⟩

theorem upd_partDecl (names : List String) (alias : String) (s : Score) : update [.partDecl names alias] s = partDeclUpd names alias s := by
  simp only [update, updListWith, updWith]
  rcases partDeclUpd names alias s with ⟨x, t⟩
  cases x <;> rfl

theorem History.continues {s t : Score} (h : History s t) (g : Good (fun _ => True) True s) :
    Continues s t ∧ Good (fun _ => True) True t := by
  induction h with
  | start => exact ⟨.refl _, g⟩
  | @event t e _ hnd ih =>
    obtain ⟨c, gt⟩ := ih
    refine ⟨c.trans ?_, (update_all_steps [e] _ gt).good gt⟩
    have := update_steps (L := fun _ => True) (D := False) [e] t (allLeavesL_true _) (Or.inr ⟨hnd, trivial⟩) (gt.weaken _)
    exact (this.view gt.wf).1.continues
  | @declare t names alias _ hn ih =>
    obtain ⟨c, gt⟩ := ih
    refine ⟨c.trans ?_, (update_all_steps _ _ gt).good gt⟩
    rw [upd_partDecl]
    exact partDecl_continues names alias t gt hn

end Alda
