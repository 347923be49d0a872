import Verif.Lemmas.WF
/-!
The bookkeeping of voice groups: what the template and the voices of a part look like.
-/
namespace Alda

/-- Description of the state after the end of a voice group for one part. -/
structure VoiceEnded (s t : Score) (i id v : Nat) (num : Int) : Prop where
  cur : s.current[i]? = some id
  mem : (num, v) ∈ s.vheap (s.heap id).voices
  heap : ∀ j, t.heap j = if j = v then { s.heap v with voices := s.vnext, template := none } else s.heap j
  next : t.next = s.next
  vheap : ∀ j, t.vheap j = if j = s.vnext then [] else s.vheap j
  vnext : t.vnext = s.vnext + 1
  parts : t.parts = replaceByOrigin s (s.heap id).origin v s.parts
  current : t.current = s.current.set i v
  aliases : t.aliases = s.aliases.map (fun a => (a.1, replaceByOrigin s (s.heap id).origin v a.2))

theorem voiceEndAt_cases (i : Nat) (s : Score) : (voiceEndAt i s).s = s ∨ ∃ id v num, VoiceEnded s (voiceEndAt i s).s i id v num := by
  simp only [voiceEndAt]
  split
  · exact Or.inl rfl
  rename_i id hid
  split
  · exact Or.inl rfl
  rename_i n last hlast
  right
  obtain ⟨x, hx, hxe⟩ := chosen_voice s _ n last hlast
  refine ⟨id, lastToFinish s last (s.vheap (s.heap id).voices).dropLast, x.1, ?_⟩
  rw [hxe]
  have ho : ∀ j, ((s.newVoices.2.modPart x.2 (fun p => { p with voices := s.newVoices.1, template := none })).heap j).origin = (s.heap j).origin := by
    intro j
    simp only [Score.newVoices, Score.modPart, Score.setPart]
    split
    · rename_i h; rw [h]
    · rfl
  have hr : ∀ l, replaceByOrigin (s.newVoices.2.modPart x.2 (fun p => { p with voices := s.newVoices.1, template := none }))
      ((s.newVoices.2.modPart x.2 (fun p => { p with voices := s.newVoices.1, template := none })).heap id).origin x.2 l =
      replaceByOrigin s (s.heap id).origin x.2 l := by
    intro l; simp only [replaceByOrigin, ho]
  refine ⟨hid, hx, fun j => rfl, rfl, fun j => rfl, rfl, hr _, rfl, ?_⟩
  simp only [Out.ok, hr]
  rfl

/-- Origins of a part list. -/
def origins (s : Score) (l : List Nat) : List Nat := l.map (fun i => (s.heap i).origin)

theorem origins_congr {s t : Score} {l : List Nat} (h : ∀ i ∈ l, (t.heap i).origin = (s.heap i).origin) : origins t l = origins s l :=
  List.map_congr_left h

theorem mem_origins {s : Score} {l : List Nat} {i : Nat} (h : i ∈ l) : (s.heap i).origin ∈ origins s l :=
  List.mem_map.2 ⟨i, h, rfl⟩

theorem VoiceEnded.origin {s t : Score} {i id v : Nat} {num : Int} (e : VoiceEnded s t i id v num) (j : Nat) :
    (t.heap j).origin = (s.heap j).origin := by
  rw [e.heap]; split
  · rename_i h; rw [h]
  · rfl

theorem VoiceEnded.lt {s t : Score} {i id v : Nat} {num : Int} (e : VoiceEnded s t i id v num) (w : WF s) :
    id ∈ s.current ∧ id < s.next ∧ v < s.next ∧ (s.heap v).origin = (s.heap id).origin := by
  have hm := List.mem_of_getElem? e.cur
  have hlt := w.cur_lt id hm
  obtain ⟨h1, h2⟩ := w.vo_mem id hlt _ e.mem
  exact ⟨hm, hlt, h1, h2⟩


/-- The voices of the current parts. -/
structure VoicesOk (s : Score) : Prop where
  keys : ∀ i ∈ s.current, ((s.vheap (s.heap i).voices).map (·.1)).Nodup
  addrs : ∀ i ∈ s.current, ((s.vheap (s.heap i).voices).map (·.2)).Nodup
  same : ∀ i ∈ s.current, ∀ x ∈ s.vheap (s.heap i).voices,
    (s.heap x.2).voices = (s.heap i).voices ∧ (s.heap x.2).template = (s.heap i).template
  tmpl : ∀ i ∈ s.current, ∀ t, (s.heap i).template = some t →
    (s.heap t).voices = (s.heap i).voices ∧ (s.heap t).template = some t ∧ t ≠ i ∧
      ∀ x ∈ s.vheap (s.heap i).voices, x.2 ≠ t

/-- Parts that are not current are not in a voice group. -/
structure IdleOk (s : Score) : Prop where
  busy : ∀ q ∈ s.parts, s.vheap (s.heap q).voices ≠ [] → ∃ c ∈ s.current, (s.heap c).voices = (s.heap q).voices
  tmpl : ∀ q ∈ s.parts, ∀ t, (s.heap q).template = some t →
    (s.heap t).voices = (s.heap q).voices ∧ (s.heap t).template = some t ∧ t ≠ q ∧
      ∀ x ∈ s.vheap (s.heap q).voices, x.2 ≠ t

theorem SameShape.voicesOk {s t : Score} (h : SameShape s t) (v : VoicesOk s) : VoicesOk t := by
  obtain ⟨hc, h1, h2, h3, h4, h5, h6⟩ := h
  have hv := fun i => (hc i).voices
  have ht := fun i => (hc i).template
  constructor <;> simp only [h2, h5, hv, ht]
  · exact v.keys
  · exact v.addrs
  · exact v.same
  · exact v.tmpl

theorem SameShape.idleOk {s t : Score} (h : SameShape s t) (v : IdleOk s) : IdleOk t := by
  obtain ⟨hc, h1, h2, h3, h4, h5, h6⟩ := h
  have hv := fun i => (hc i).voices
  have ht := fun i => (hc i).template
  constructor <;> simp only [h2, h4, h5, hv, ht]
  · exact v.busy
  · exact v.tmpl

/-- Current parts with the same origin are the same. -/
theorem WF.cur_inj {s : Score} (w : WF s) {i j : Nat} (hi : i ∈ s.current) (hj : j ∈ s.current)
    (h : (s.heap i).origin = (s.heap j).origin) : i = j := inj_of_nodup_map w.cur_nodup hi hj h

/-! ### Making the template -/

theorem template_heap (s : Score) (id : Nat) (hlt : id < s.next) (i : Nat) :
    ((s.alloc { (s.heap id).clone with template := some s.next }).2.modPart id
      (fun p => { p with template := some s.next })).heap i =
    if i = id then { s.heap id with template := some s.next }
    else if i = s.next then { (s.heap id).clone with template := some s.next } else s.heap i := by
  simp only [Score.modPart, Score.setPart, Score.alloc]
  split
  · rw [if_neg (by omega)]
  · rfl

theorem template_voicesOk {s : Score} {id : Nat} (w : WF s) (v : VoicesOk s) (hid : id ∈ s.current)
    (hv : s.vheap (s.heap id).voices = []) :
    VoicesOk ((s.alloc { (s.heap id).clone with template := some s.next }).2.modPart id (fun p => { p with template := some s.next })) := by
  have hlt := w.cur_lt id hid
  have hh := template_heap s id hlt
  generalize hs' : ((s.alloc { (s.heap id).clone with template := some s.next }).2.modPart id
    (fun p => { p with template := some s.next })) = s' at hh
  have e1 : s'.vheap = s.vheap := by subst hs'; rfl
  have e2 : s'.current = s.current := by subst hs'; rfl
  clear hs'
  have old : ∀ j, j < s.next → j ≠ id → s'.heap j = s.heap j := fun j h1 h2 => by rw [hh, if_neg h2, if_neg (by omega)]
  have self : s'.heap id = { s.heap id with template := some s.next } := by rw [hh, if_pos rfl]
  have tm : s'.heap s.next = { (s.heap id).clone with template := some s.next } := by rw [hh, if_neg (by omega), if_pos rfl]
  have vv : ∀ i ∈ s.current, (s'.heap i).voices = (s.heap i).voices := by
    intro i hi
    by_cases h : i = id
    · subst h; rw [self]
    · rw [old i (w.cur_lt i hi) h]
  constructor
  · intro i hi; rw [e2] at hi; rw [e1, vv i hi]; exact v.keys i hi
  · intro i hi; rw [e2] at hi; rw [e1, vv i hi]; exact v.addrs i hi
  · intro i hi x hx
    rw [e2] at hi
    rw [e1, vv i hi] at hx
    by_cases h : i = id
    · subst h; rw [hv] at hx; simp at hx
    · obtain ⟨h1, h2⟩ := w.vo_mem i (w.cur_lt i hi) x hx
      have hne : x.2 ≠ id := fun hx2 => h (w.cur_inj hi hid (by rw [← h2, hx2]))
      rw [old _ h1 hne, old i (w.cur_lt i hi) h]
      exact v.same i hi x hx
  · intro i hi t ht
    rw [e2] at hi
    rw [e1, vv i hi]
    by_cases h : i = id
    · subst h
      rw [self] at ht
      simp only [Option.some.injEq] at ht; subst ht
      rw [tm, hv]
      exact ⟨rfl, rfl, by omega, by simp⟩
    · rw [old i (w.cur_lt i hi) h] at ht
      obtain ⟨h1, h2⟩ := w.tmpl i (w.cur_lt i hi) t ht
      have hne : t ≠ id := fun hx2 => h (w.cur_inj hi hid (by rw [← h2, hx2]))
      rw [old t h1 hne]
      exact v.tmpl i hi t ht

theorem template_idleOk {s : Score} {id : Nat} (w : WF s) (v : IdleOk s) (hid : id ∈ s.current)
    (hv : s.vheap (s.heap id).voices = []) (htn : (s.heap id).template = none) :
    IdleOk ((s.alloc { (s.heap id).clone with template := some s.next }).2.modPart id (fun p => { p with template := some s.next })) := by
  have hlt := w.cur_lt id hid
  have hh := template_heap s id hlt
  generalize hs' : ((s.alloc { (s.heap id).clone with template := some s.next }).2.modPart id
    (fun p => { p with template := some s.next })) = s' at hh
  have e1 : s'.vheap = s.vheap := by subst hs'; rfl
  have e2 : s'.current = s.current := by subst hs'; rfl
  have e3 : s'.parts = s.parts := by subst hs'; rfl
  clear hs'
  have old : ∀ j, j < s.next → j ≠ id → s'.heap j = s.heap j := fun j h1 h2 => by rw [hh, if_neg h2, if_neg (by omega)]
  have self : s'.heap id = { s.heap id with template := some s.next } := by rw [hh, if_pos rfl]
  have tm : s'.heap s.next = { (s.heap id).clone with template := some s.next } := by rw [hh, if_neg (by omega), if_pos rfl]
  have vv : ∀ i < s.next, (s'.heap i).voices = (s.heap i).voices := by
    intro i hi
    by_cases h : i = id
    · subst h; rw [self]
    · rw [old i hi h]
  constructor
  · intro q hq hne
    rw [e3] at hq; rw [e1, vv q (w.parts_lt q hq)] at hne
    obtain ⟨c, hc, h⟩ := v.busy q hq hne
    exact ⟨c, by rw [e2]; exact hc, by rw [vv c (w.cur_lt c hc), vv q (w.parts_lt q hq), h]⟩
  · intro q hq t ht
    rw [e3] at hq
    rw [e1, vv q (w.parts_lt q hq)]
    by_cases h : q = id
    · subst h
      rw [self] at ht
      simp only [Option.some.injEq] at ht; subst ht
      rw [tm, hv]
      exact ⟨rfl, rfl, by omega, by simp⟩
    · rw [old q (w.parts_lt q hq) h] at ht
      obtain ⟨h1, h2⟩ := w.tmpl q (w.parts_lt q hq) t ht
      have h3 := v.tmpl q hq t ht
      have hne : t ≠ id := fun hx => by rw [hx, htn] at h3; simp at h3
      rw [old t h1 hne]
      exact h3

/-! ### Adding a voice -/

/-- What `addVoice` does to the score. -/
structure VoiceAdded (s s' : Score) (id t : Nat) (n : Int) : Prop where
  heap : ∀ i, s'.heap i = if i = s.next then (s.heap t).clone else s.heap i
  vheap : ∀ i, s'.vheap i = if i = (s.heap id).voices then s.vheap i ++ [(n, s.next)] else s.vheap i
  current : s'.current = s.current
  parts : s'.parts = s.parts

theorem addVoice_added {s : Score} {id t : Nat} (n : Int) (ht : (s.heap id).template = some t) :
    VoiceAdded s (addVoice id n s).1.s id t n := by
  refine ⟨?_, ?_, ?_, ?_⟩
  · intro i; simp only [addVoice, ht, Score.alloc, Score.setPart, Out.ok]
  · intro i; simp only [addVoice, ht, Score.alloc, Score.setPart, Out.ok]
    split
    · rename_i h; rw [h]
    · rfl
  · simp only [addVoice, ht, Score.alloc, Score.setPart, Out.ok]
  · simp only [addVoice, ht, Score.alloc, Score.setPart, Out.ok]

theorem lookup_none_key {β : Type} : ∀ (l : List (Int × β)) (n : Int), l.lookup n = none → n ∉ l.map (·.1) := by
  intro l
  induction l with
  | nil => intro n _; simp
  | cons x l ih =>
    intro n h
    obtain ⟨m, v⟩ := x
    simp only [List.lookup_cons] at h
    by_cases hm : n = m
    · subst hm; simp at h
    · have : (n == m) = false := by simpa using hm
      rw [this] at h
      simp only [List.map_cons, List.mem_cons, not_or]
      exact ⟨hm, ih n h⟩

theorem nodup_append_one {α : Type} {l : List α} {a : α} (h : l.Nodup) (ha : a ∉ l) : (l ++ [a]).Nodup := by
  rw [List.nodup_append]
  refine ⟨h, by simp, ?_⟩
  intro x hx y hy
  simp only [List.mem_singleton] at hy; subst hy
  intro e; subst e; exact ha hx

theorem newVoice_voicesOk {s s' : Score} {id t : Nat} {n : Int} (w : WF s) (v : VoicesOk s) (hid : id ∈ s.current)
    (ht : (s.heap id).template = some t) (hn : (s.vheap (s.heap id).voices).lookup n = none) (a : VoiceAdded s s' id t n) :
    VoicesOk s' := by
  have hlt := w.cur_lt id hid
  have old : ∀ j, j < s.next → s'.heap j = s.heap j := fun j h1 => by rw [a.heap, if_neg (by omega)]
  have vo : ∀ i ∈ s.current, s'.vheap (s'.heap i).voices =
      if i = id then s.vheap (s.heap id).voices ++ [(n, s.next)] else s.vheap (s.heap i).voices := by
    intro i hi
    rw [old i (w.cur_lt i hi), a.vheap]
    by_cases h : i = id
    · subst h; rw [if_pos rfl, if_pos rfl]
    · rw [if_neg h, if_neg]
      intro hv; exact h (w.cur_inj hi hid (w.vo_share i (w.cur_lt i hi) id hlt hv))
  obtain ⟨ht1, ht2, ht3, ht4⟩ := v.tmpl id hid t ht
  have htl := (w.tmpl id hlt t ht).1
  constructor
  · intro i hi; rw [a.current] at hi; rw [vo i hi]
    split
    · rw [List.map_append]; exact nodup_append_one (v.keys id hid) (lookup_none_key _ _ hn)
    · exact v.keys i hi
  · intro i hi; rw [a.current] at hi; rw [vo i hi]
    split
    · rw [List.map_append]
      refine nodup_append_one (v.addrs id hid) ?_
      intro hm
      obtain ⟨x, hx, hxe⟩ := List.mem_map.1 hm
      have := (w.vo_mem id hlt x hx).1
      simp only at hxe; omega
    · exact v.addrs i hi
  · intro i hi x hx
    rw [a.current] at hi; rw [vo i hi] at hx
    rw [old i (w.cur_lt i hi)]
    have oldcase : x ∈ s.vheap (s.heap i).voices → (s'.heap x.2).voices = (s.heap i).voices ∧ (s'.heap x.2).template = (s.heap i).template := by
      intro hx
      rw [old _ (w.vo_mem i (w.cur_lt i hi) x hx).1]; exact v.same i hi x hx
    split at hx
    · rename_i h; subst h
      rcases List.mem_append.1 hx with hx | hx
      · exact oldcase hx
      · simp only [List.mem_singleton] at hx; subst hx
        show (s'.heap s.next).voices = _ ∧ (s'.heap s.next).template = _
        rw [a.heap, if_pos rfl]
        exact ⟨ht1, by rw [ht]; exact ht2⟩
    · exact oldcase hx
  · intro i hi t' ht'
    rw [a.current] at hi; rw [vo i hi]
    rw [old i (w.cur_lt i hi)] at ht' ⊢
    have htl' := (w.tmpl i (w.cur_lt i hi) t' ht').1
    obtain ⟨h1, h2, h3, h4⟩ := v.tmpl i hi t' ht'
    rw [old t' htl']
    refine ⟨h1, h2, h3, ?_⟩
    intro x hx
    split at hx
    · rename_i h; subst h
      rcases List.mem_append.1 hx with hx | hx
      · exact h4 x hx
      · simp only [List.mem_singleton] at hx; subst hx; simp only; omega
    · exact h4 x hx

theorem newVoice_idleOk {s s' : Score} {id t : Nat} {n : Int} (w : WF s) (v : IdleOk s) (hid : id ∈ s.current)
    (a : VoiceAdded s s' id t n) : IdleOk s' := by
  have hlt := w.cur_lt id hid
  have old : ∀ j, j < s.next → s'.heap j = s.heap j := fun j h1 => by rw [a.heap, if_neg (by omega)]
  constructor
  · intro q hq hne
    rw [a.parts] at hq
    rw [old q (w.parts_lt q hq)] at hne ⊢
    rw [a.current]
    rw [a.vheap] at hne
    split at hne
    · rename_i h
      exact ⟨id, hid, by rw [old id hlt, h]⟩
    · obtain ⟨c, hc, h⟩ := v.busy q hq hne
      exact ⟨c, hc, by rw [old c (w.cur_lt c hc)]; exact h⟩
  · intro q hq t' ht'
    rw [a.parts] at hq
    rw [old q (w.parts_lt q hq)] at ht' ⊢
    have htl := (w.tmpl q (w.parts_lt q hq) t' ht').1
    obtain ⟨h1, h2, h3, h4⟩ := v.tmpl q hq t' ht'
    rw [old t' htl]
    refine ⟨h1, h2, h3, ?_⟩
    intro x hx
    rw [a.vheap] at hx
    split at hx
    · rcases List.mem_append.1 hx with hx | hx
      · exact h4 x hx
      · simp only [List.mem_singleton] at hx; subst hx; simp only; omega
    · exact h4 x hx

/-! ### Entering a voice -/

theorem mem_replaceByOrigin {s : Score} {o v j : Nat} {l : List Nat} (h : j ∈ replaceByOrigin s o v l) :
    j = v ∨ (j ∈ l ∧ (s.heap j).origin ≠ o) := by
  obtain ⟨q, hq, he⟩ := List.mem_map.1 h
  split at he
  · exact Or.inl he.symm
  · rename_i hne; subst he; exact Or.inr ⟨hq, hne⟩

theorem enterVoice_voicesOk {s : Score} {id : Nat} {n : Int} {v : Nat} (vo : VoicesOk s) (hid : id ∈ s.current)
    (hv : (n, v) ∈ s.vheap (s.heap id).voices) :
    VoicesOk { s with current := replaceByOrigin s (s.heap id).origin v s.current } := by
  obtain ⟨h1, h2⟩ := vo.same id hid _ hv
  simp only at h1 h2
  constructor
  · intro i hi
    rcases mem_replaceByOrigin hi with rfl | ⟨hi, _⟩
    · simp only [h1]; exact vo.keys id hid
    · exact vo.keys i hi
  · intro i hi
    rcases mem_replaceByOrigin hi with rfl | ⟨hi, _⟩
    · simp only [h1]; exact vo.addrs id hid
    · exact vo.addrs i hi
  · intro i hi
    rcases mem_replaceByOrigin hi with rfl | ⟨hi, _⟩
    · simp only [h1, h2]; exact vo.same id hid
    · exact vo.same i hi
  · intro i hi t ht
    rcases mem_replaceByOrigin hi with rfl | ⟨hi, _⟩
    · simp only [h2] at ht
      obtain ⟨k1, k2, k3, k4⟩ := vo.tmpl id hid t ht
      simp only [h1]
      exact ⟨k1, k2, fun h => k4 _ hv h.symm, k4⟩
    · exact vo.tmpl i hi t ht

theorem enterVoice_idleOk {s : Score} {id : Nat} {n : Int} {v : Nat} (w : WF s) (vo : VoicesOk s) (idle : IdleOk s) (hid : id ∈ s.current)
    (hv : (n, v) ∈ s.vheap (s.heap id).voices) :
    IdleOk { s with current := replaceByOrigin s (s.heap id).origin v s.current } := by
  refine ⟨?_, idle.tmpl⟩
  intro q hq hne
  obtain ⟨c, hc, h⟩ := idle.busy q hq hne
  by_cases ho : (s.heap c).origin = (s.heap id).origin
  · have := w.cur_inj hc hid ho
    subst this
    refine ⟨v, ?_, ?_⟩
    · exact List.mem_map.2 ⟨c, hc, if_pos rfl⟩
    · simp only; rw [(vo.same c hc _ hv).1, h]
  · refine ⟨c, ?_, h⟩
    exact List.mem_map.2 ⟨c, hc, if_neg ho⟩

/-! ### The end of a voice group -/

theorem mem_set_cur {s : Score} (w : WF s) {i id v j : Nat} (hi : s.current[i]? = some id) (h : j ∈ s.current.set i v) :
    j = v ∨ (j ∈ s.current ∧ (s.heap j).origin ≠ (s.heap id).origin) := by
  obtain ⟨k, hk, he⟩ := List.mem_iff_getElem.1 h
  rw [List.getElem_set] at he
  split at he
  · exact Or.inl he.symm
  · rename_i hne
    rw [List.length_set] at hk
    refine Or.inr ⟨he ▸ List.getElem_mem _, ?_⟩
    intro ho
    have hidm := List.mem_of_getElem? hi
    have hjm : j ∈ s.current := he ▸ List.getElem_mem _
    have e : j = id := w.cur_inj hjm hidm ho
    have nd : s.current.Nodup := List.Pairwise.of_map _ (fun _ _ h h' => h (by rw [h'])) w.cur_nodup
    obtain ⟨hil, _⟩ := List.getElem?_eq_some_iff.1 hi
    exact hne ((List.getElem?_inj hil nd).1 (by rw [hi, List.getElem?_eq_getElem hk, he, e]))

theorem ended_voicesOk {s t : Score} {i id v : Nat} {num : Int} (w : WF s) (vo : VoicesOk s) (e : VoiceEnded s t i id v num) : VoicesOk t := by
  obtain ⟨hm, hlt, vlt, vor⟩ := e.lt w
  have self : t.heap v = { s.heap v with voices := s.vnext, template := none } := by rw [e.heap, if_pos rfl]
  have old : ∀ j, (s.heap j).origin ≠ (s.heap id).origin → t.heap j = s.heap j := by
    intro j hj; rw [e.heap, if_neg]; intro h; exact hj (by rw [h, vor])
  have empty : t.vheap (t.heap v).voices = [] := by rw [self, e.vheap, if_pos rfl]
  have keep : ∀ j ∈ s.current, (s.heap j).origin ≠ (s.heap id).origin → t.vheap (t.heap j).voices = s.vheap (s.heap j).voices := by
    intro j hj ho
    rw [old j ho, e.vheap, if_neg]
    have := w.vo_lt j (w.cur_lt j hj); omega
  have cases : ∀ j ∈ t.current, j = v ∨ (j ∈ s.current ∧ (s.heap j).origin ≠ (s.heap id).origin) := by
    intro j hj; rw [e.current] at hj; exact mem_set_cur w e.cur hj
  constructor
  · intro j hj
    rcases cases j hj with rfl | ⟨h1, h2⟩
    · rw [empty]; simp
    · rw [keep j h1 h2]; exact vo.keys j h1
  · intro j hj
    rcases cases j hj with rfl | ⟨h1, h2⟩
    · rw [empty]; simp
    · rw [keep j h1 h2]; exact vo.addrs j h1
  · intro j hj x hx
    rcases cases j hj with rfl | ⟨h1, h2⟩
    · rw [empty] at hx; simp at hx
    · rw [keep j h1 h2] at hx
      have := (w.vo_mem j (w.cur_lt j h1) x hx).2
      rw [old x.2 (by rw [this]; exact h2), old j h2]
      exact vo.same j h1 x hx
  · intro j hj t' ht'
    rcases cases j hj with rfl | ⟨h1, h2⟩
    · rw [self] at ht'; simp at ht'
    · rw [old j h2] at ht'
      have := (w.tmpl j (w.cur_lt j h1) t' ht').2
      rw [keep j h1 h2, old t' (by rw [this]; exact h2), old j h2]
      exact vo.tmpl j h1 t' ht'

theorem ended_idleOk {s t : Score} {i id v : Nat} {num : Int} (w : WF s) (vo : IdleOk s) (e : VoiceEnded s t i id v num) : IdleOk t := by
  obtain ⟨hm, hlt, vlt, vor⟩ := e.lt w
  have self : t.heap v = { s.heap v with voices := s.vnext, template := none } := by rw [e.heap, if_pos rfl]
  have old : ∀ j, (s.heap j).origin ≠ (s.heap id).origin → t.heap j = s.heap j := by
    intro j hj; rw [e.heap, if_neg]; intro h; exact hj (by rw [h, vor])
  have empty : t.vheap (t.heap v).voices = [] := by rw [self, e.vheap, if_pos rfl]
  have keep : ∀ j < s.next, (s.heap j).origin ≠ (s.heap id).origin → t.vheap (t.heap j).voices = s.vheap (s.heap j).voices := by
    intro j hj ho
    rw [old j ho, e.vheap, if_neg]
    have := w.vo_lt j hj; omega
  have cases : ∀ j ∈ t.parts, j = v ∨ (j ∈ s.parts ∧ (s.heap j).origin ≠ (s.heap id).origin) := by
    intro j hj; rw [e.parts] at hj; exact mem_replaceByOrigin hj
  constructor
  · intro q hq hne
    rcases cases q hq with rfl | ⟨h1, h2⟩
    · exact absurd empty hne
    · have hl := w.parts_lt q h1
      rw [keep q hl h2] at hne
      obtain ⟨c, hc, h⟩ := vo.busy q h1 hne
      have hco : (s.heap c).origin ≠ (s.heap id).origin := by
        rw [w.vo_share c (w.cur_lt c hc) q hl h]; exact h2
      refine ⟨c, ?_, by rw [old c hco, old q h2, h]⟩
      rw [e.current]
      obtain ⟨k, hk, he⟩ := List.mem_iff_getElem.1 hc
      refine List.mem_iff_getElem.2 ⟨k, by rw [List.length_set]; exact hk, ?_⟩
      rw [List.getElem_set, if_neg]
      · exact he
      · intro hik; subst hik
        have := e.cur
        rw [List.getElem?_eq_getElem hk, Option.some.injEq] at this
        exact hco (by rw [← he, this])
  · intro q hq t' ht'
    rcases cases q hq with rfl | ⟨h1, h2⟩
    · rw [self] at ht'; simp at ht'
    · have hl := w.parts_lt q h1
      rw [old q h2] at ht'
      have := (w.tmpl q hl t' ht').2
      rw [keep q hl h2, old t' (by rw [this]; exact h2), old q h2]
      exact vo.tmpl q h1 t' ht'

/-! ### Declarations -/

theorem newPart_voicesOk {name : String} {s : Score} {id : Nat} {s' : Score} (w : WF s) (v : VoicesOk s)
    (h : newPart name s = some (id, s')) : VoicesOk s' := by
  obtain ⟨instr, _, _, p, _, _, _, _, _, _, _, _, _, _, _, _, _, _, _, _, _, _, _, _, rfl⟩ := newPart_eq h
  have old : ∀ i < s.next, (if i = s.next then p else s.heap i) = s.heap i := fun i hi => if_neg (by omega)
  have oldv : ∀ i ∈ s.current, (if (s.heap i).voices = s.vnext then [] else s.vheap (s.heap i).voices) = s.vheap (s.heap i).voices :=
    fun i hi => if_neg (by have := w.vo_lt i (w.cur_lt i hi); omega)
  constructor
  · intro i hi; simp only [old i (w.cur_lt i hi), oldv i hi]; exact v.keys i hi
  · intro i hi; simp only [old i (w.cur_lt i hi), oldv i hi]; exact v.addrs i hi
  · intro i hi x hx
    simp only [old i (w.cur_lt i hi), oldv i hi] at hx
    simp only [old i (w.cur_lt i hi), old x.2 (w.vo_mem i (w.cur_lt i hi) x hx).1]
    exact v.same i hi x hx
  · intro i hi t ht
    simp only [old i (w.cur_lt i hi)] at ht
    simp only [old i (w.cur_lt i hi), oldv i hi, old t (w.tmpl i (w.cur_lt i hi) t ht).1]
    exact v.tmpl i hi t ht

theorem newPart_idleOk {name : String} {s : Score} {id : Nat} {s' : Score} (w : WF s) (v : IdleOk s)
    (h : newPart name s = some (id, s')) : IdleOk s' := by
  obtain ⟨instr, _, _, p, _, _, _, _, _, _, _, _, _, _, _, _, _, _, _, _, _, _, _, _, rfl⟩ := newPart_eq h
  have old : ∀ i < s.next, (if i = s.next then p else s.heap i) = s.heap i := fun i hi => if_neg (by omega)
  have oldv : ∀ i ∈ s.parts, (if (s.heap i).voices = s.vnext then [] else s.vheap (s.heap i).voices) = s.vheap (s.heap i).voices :=
    fun i hi => if_neg (by have := w.vo_lt i (w.parts_lt i hi); omega)
  constructor
  · intro q hq hne
    simp only [old q (w.parts_lt q hq), oldv q hq] at hne ⊢
    obtain ⟨c, hc, h⟩ := v.busy q hq hne
    exact ⟨c, hc, by simp only [old c (w.cur_lt c hc)]; exact h⟩
  · intro i hi t ht
    simp only [old i (w.parts_lt i hi)] at ht
    simp only [old i (w.parts_lt i hi), oldv i hi, old t (w.tmpl i (w.parts_lt i hi) t ht).1]
    exact v.tmpl i hi t ht

theorem newPart_groups {name : String} {s : Score} {id : Nat} {s' : Score} (w : WF s) (h : newPart name s = some (id, s'))
    (hg : ∀ q ∈ s.parts, s.vheap (s.heap q).voices = []) : ∀ q ∈ s'.parts, s'.vheap (s'.heap q).voices = [] := by
  obtain ⟨instr, _, _, p, _, _, _, _, _, _, _, _, _, _, _, _, _, _, _, _, _, _, _, _, rfl⟩ := newPart_eq h
  intro q hq
  have h1 : (if q = s.next then p else s.heap q) = s.heap q := if_neg (by have := w.parts_lt q hq; omega)
  simp only [h1, hg q hq]
  split <;> rfl

theorem declareParts_same (parts : List Nat) (alias : String) (s : Score) (i : Nat) :
    ((declareParts parts alias s).heap i).voices = (s.heap i).voices ∧ ((declareParts parts alias s).heap i).template = (s.heap i).template := by
  rw [declareParts_heap]
  rcases markMaster_heap parts s i with h | ⟨_, _, h⟩ <;> rw [h] <;> exact ⟨rfl, rfl⟩

theorem declareParts_vheap (parts : List Nat) (alias : String) (s : Score) : (declareParts parts alias s).vheap = s.vheap := by
  show (markMaster parts s).vheap = _; rw [markMaster_rest]

theorem declareParts_parts (parts : List Nat) (alias : String) (s : Score) : (declareParts parts alias s).parts = dedup s.parts parts := by
  show dedup (markMaster parts s).parts parts = _; rw [markMaster_rest]

theorem declare_voicesOk {s : Score} (idle : IdleOk s) (parts : List Nat) (alias : String)
    (hp : ∀ id ∈ parts, id ∈ s.parts ∨ Fresh s id) (hg : ∀ q ∈ s.parts, s.vheap (s.heap q).voices = []) :
    VoicesOk (declareParts parts alias s) := by
  have hs := declareParts_same parts alias s
  have hv := declareParts_vheap parts alias s
  have empty : ∀ i ∈ parts, s.vheap (s.heap i).voices = [] := fun i hi => (hp i hi).elim (hg i) (·.noVoices)
  have hc : (declareParts parts alias s).current = parts := rfl
  constructor
  · intro i hi; rw [hv, (hs i).1, empty i hi]; simp
  · intro i hi; rw [hv, (hs i).1, empty i hi]; simp
  · intro i hi x hx; rw [hv, (hs i).1, empty i hi] at hx; simp at hx
  · intro i hi t ht
    rw [(hs i).2] at ht
    rw [(hs t).1, (hs t).2, hv, (hs i).1, empty i hi]
    rcases hp i hi with h | h
    · obtain ⟨h1, h2, h3, _⟩ := idle.tmpl i h t ht
      exact ⟨h1, h2, h3, by simp⟩
    · rw [h.noTemplate] at ht; simp at ht

theorem declare_idleOk {s : Score} (idle : IdleOk s) (parts : List Nat) (alias : String)
    (hp : ∀ id ∈ parts, id ∈ s.parts ∨ Fresh s id) (hg : ∀ q ∈ s.parts, s.vheap (s.heap q).voices = []) :
    IdleOk (declareParts parts alias s) := by
  have hs := declareParts_same parts alias s
  have hv := declareParts_vheap parts alias s
  have hmem : ∀ q ∈ (declareParts parts alias s).parts, q ∈ s.parts ∨ Fresh s q := by
    intro q hq
    rw [declareParts_parts, dedup_mem] at hq
    exact hq.elim Or.inl (hp q)
  have empty : ∀ q ∈ (declareParts parts alias s).parts, s.vheap (s.heap q).voices = [] :=
    fun q hq => (hmem q hq).elim (hg q) (·.noVoices)
  constructor
  · intro q hq hne
    rw [hv, (hs q).1, empty q hq] at hne; exact absurd rfl hne
  · intro q hq t ht
    rw [(hs q).2] at ht
    rw [(hs t).1, (hs t).2, hv, (hs q).1, empty q hq]
    rcases hmem q hq with h | h
    · obtain ⟨h1, h2, h3, _⟩ := idle.tmpl q h t ht
      exact ⟨h1, h2, h3, by simp⟩
    · rw [h.noTemplate] at ht; simp at ht

/-! ### Steps -/

theorem Step.voicesOk {L D} {s t : Score} (h : Step L D s t) (w : WF s) (v : VoicesOk s) (idle : D → IdleOk s) : VoicesOk t := by
  cases h with
  | attr hid hL hu => exact (SameShape.setPart ((updatePart_identity hu).override _)).voicesOk v
  | globals hid => exact (applyGlobalsPart_shape _ s).voicesOk v
  | record o u hL => exact SameShape.voicesOk (s := s) ⟨fun _ => .refl _, rfl, rfl, rfl, rfl, rfl, rfl⟩ v
  | emit d a hid ha hn hd hc => exact (emitted_shape _ _ _ _ _ _).voicesOk v
  | timing o l t d r hid => exact SameShape.voicesOk (SameShape.setPart ⟨rfl, rfl, rfl, rfl, rfl, rfl⟩) v
  | chordMode b => exact SameShape.voicesOk (s := s) ⟨fun _ => .refl _, rfl, rfl, rfl, rfl, rfl, rfl⟩ v
  | marker n o => exact SameShape.voicesOk (s := s) ⟨fun _ => .refl _, rfl, rfl, rfl, rfl, rfl, rfl⟩ v
  | setVar n es hes => exact SameShape.voicesOk (s := s) ⟨fun _ => .refl _, rfl, rfl, rfl, rfl, rfl, rfl⟩ v
  | template hid hv ht => exact template_voicesOk w v hid hv
  | newVoice n hid ht hn => exact newVoice_voicesOk w v hid ht hn (addVoice_added n ht)
  | enterVoice hid hv => exact enterVoice_voicesOk v hid hv
  | endVoices i =>
    rcases voiceEndAt_cases i s with h | ⟨id, x, num, e⟩
    · rw [h]; exact v
    · exact ended_voicesOk w v e
  | newPart hD name h => exact newPart_voicesOk w v h
  | declare hD parts alias hp hn hne hg => exact declare_voicesOk (idle hD) parts alias hp hg

theorem Step.idleOk {L D} {s t : Score} (h : Step L D s t) (w : WF s) (v : VoicesOk s) (idle : IdleOk s) : IdleOk t := by
  cases h with
  | attr hid hL hu => exact (SameShape.setPart ((updatePart_identity hu).override _)).idleOk idle
  | globals hid => exact (applyGlobalsPart_shape _ s).idleOk idle
  | record o u hL => exact SameShape.idleOk (s := s) ⟨fun _ => .refl _, rfl, rfl, rfl, rfl, rfl, rfl⟩ idle
  | emit d a hid ha hn hd hc => exact (emitted_shape _ _ _ _ _ _).idleOk idle
  | timing o l t d r hid => exact SameShape.idleOk (SameShape.setPart ⟨rfl, rfl, rfl, rfl, rfl, rfl⟩) idle
  | chordMode b => exact SameShape.idleOk (s := s) ⟨fun _ => .refl _, rfl, rfl, rfl, rfl, rfl, rfl⟩ idle
  | marker n o => exact SameShape.idleOk (s := s) ⟨fun _ => .refl _, rfl, rfl, rfl, rfl, rfl, rfl⟩ idle
  | setVar n es hes => exact SameShape.idleOk (s := s) ⟨fun _ => .refl _, rfl, rfl, rfl, rfl, rfl, rfl⟩ idle
  | template hid hv ht => exact template_idleOk w idle hid hv ht
  | newVoice n hid ht hn => exact newVoice_idleOk w idle hid (addVoice_added n ht)
  | enterVoice hid hv => exact enterVoice_idleOk w v idle hid hv
  | endVoices i =>
    rcases voiceEndAt_cases i s with h | ⟨id, x, num, e⟩
    · rw [h]; exact idle
    · exact ended_idleOk w idle e
  | newPart hD name h => exact newPart_idleOk w idle h
  | declare hD parts alias hp hn hne hg => exact declare_idleOk idle parts alias hp hg

theorem newScore_voicesOk : VoicesOk newScore := by constructor <;> simp [newScore]

theorem newScore_idleOk : IdleOk newScore := by constructor <;> simp [newScore]

end Alda
