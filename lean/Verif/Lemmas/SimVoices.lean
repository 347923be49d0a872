import Verif.Lemmas.Sim
/-!
Voice groups do to every active instrument what `Track.voice` and `Track.voiceEnd` do to its track.
-/
namespace Alda

theorem replace_eq_set {s s' : Score} (w : WF s) {i id v : Nat} (hi : s.current[i]? = some id)
    (ho : ∀ j ∈ s.current, (s'.heap j).origin = (s.heap j).origin) :
    replaceByOrigin s' (s'.heap id).origin v s.current = s.current.set i v := by
  have hid := List.mem_of_getElem? hi
  apply List.ext_getElem?
  intro k
  unfold replaceByOrigin
  rw [List.getElem?_map, List.getElem?_set]
  by_cases h : i = k
  · subst h
    obtain ⟨hl, _⟩ := List.getElem?_eq_some_iff.1 hi
    rw [hi]; simp [hl]
  · rw [if_neg h]
    cases hk : s.current[k]? with
    | none => rfl
    | some q =>
      have hq := List.mem_of_getElem? hk
      simp only [Option.map_some, Option.some.injEq]
      rw [if_neg]
      rw [ho q hq, ho id hid]
      intro e
      have := w.cur_inj hq hid e
      subst this
      obtain ⟨hl, _⟩ := List.getElem?_eq_some_iff.1 hi
      exact h ((List.getElem?_inj hl w.cur_ids_nodup).1 (by rw [hi, hk]))

/-- A change of the `i`-th current part only, which may be replaced. -/
structure IndexStep (s s' : Score) (i id : Nat) (g : Track → Option Track) : Prop where
  steps : Steps (fun _ => True) False s s'
  vars : s'.vars = s.vars
  self : ∃ v, s'.current = s.current.set i v ∧ g (trackOf s id) = some (trackOf s' v)
  others : ∀ j ∈ s.current, j ≠ id → trackOf s' j = trackOf s j

/-- The result of a loop over indices of the current parts. -/
theorem forIds_index (f : Nat → Score → Out) (g : Track → Option Track)
    (hf : ∀ s i id, G s → s.current[i]? = some id → (f i s).err = none → IndexStep s (f i s).s i id g) :
    ∀ (is : List Nat) (s : Score), G s → is.Nodup → (∀ i ∈ is, i < s.current.length) → (forIds f is s).err = none →
      Steps (fun _ => True) False s (forIds f is s).s ∧ (forIds f is s).s.vars = s.vars ∧
      (forIds f is s).s.current.length = s.current.length ∧
      ∀ i id, s.current[i]? = some id →
        if i ∈ is then ∃ id', (forIds f is s).s.current[i]? = some id' ∧ g (trackOf s id) = some (trackOf (forIds f is s).s id')
        else (forIds f is s).s.current[i]? = some id ∧ trackOf (forIds f is s).s id = trackOf s id := by
  intro is
  induction is with
  | nil => intro s _ _ _ _; refine ⟨.refl s, rfl, rfl, ?_⟩; intro i id hi; simpa using ⟨hi, rfl⟩
  | cons k ks ih =>
    intro s good hnd hlen he
    obtain ⟨hnk, hnd⟩ := List.nodup_cons.1 hnd
    have hkl := hlen k (List.mem_cons_self ..)
    simp only [forIds] at he ⊢
    rcases Out.andThen_s (f k s) (forIds f ks) with ⟨h0, h1, h2⟩ | ⟨e, h0, h1, h2⟩
    · rw [h2] at he
      have hkc : s.current[k]? = some s.current[k] := List.getElem?_eq_getElem hkl
      have st := hf s k _ good hkc h0
      obtain ⟨v, hv, hgv⟩ := st.self
      have hlen' : (f k s).s.current.length = s.current.length := by rw [hv, List.length_set]
      obtain ⟨r1, r2, r3, r4⟩ := ih (f k s).s (st.steps.good good) hnd
        (fun i hi => by rw [hlen']; exact hlen i (List.mem_cons_of_mem _ hi)) he
      rw [h1]
      refine ⟨st.steps.trans r1, r2.trans st.vars, r3.trans hlen', ?_⟩
      intro i id hi
      by_cases hik : i = k
      · subst hik
        rw [hkc, Option.some.injEq] at hi
        subst hi
        have hc : (f i s).s.current[i]? = some v := by rw [hv, List.getElem?_set]; simp [hkl]
        have := r4 i v hc
        rw [if_neg hnk] at this
        rw [if_pos (List.mem_cons_self ..)]
        exact ⟨v, this.1, by rw [hgv, this.2]⟩
      · have hc : (f k s).s.current[i]? = some id := by
          rw [hv, List.getElem?_set, if_neg (fun e => hik e.symm)]; exact hi
        have hne : id ≠ s.current[k] := by
          intro e
          exact hik ((List.getElem?_inj hkl good.wf.cur_ids_nodup).1 (by rw [hkc, hi, e])).symm
        have ho := st.others id (List.mem_of_getElem? hi) hne
        have := r4 i id hc
        by_cases hm : i ∈ ks
        · rw [if_pos hm] at this
          rw [if_pos (List.mem_cons_of_mem _ hm)]
          rw [ho] at this; exact this
        · rw [if_neg hm] at this
          rw [if_neg (by simp [hik, hm])]
          exact ⟨this.1, this.2.trans ho⟩
    · rw [h2] at he; simp at he

theorem forCurrent_index (f : Nat → Score → Out) (g : Track → Option Track)
    (hf : ∀ s i id, G s → s.current[i]? = some id → (f i s).err = none → IndexStep s (f i s).s i id g)
    (s : Score) (good : G s) (he : (forIds f (List.range s.current.length) s).err = none) :
    Steps (fun _ => True) False s (forIds f (List.range s.current.length) s).s ∧
    (forIds f (List.range s.current.length) s).s.vars = s.vars ∧
    (forIds f (List.range s.current.length) s).s.current.length = s.current.length ∧
    ∀ (i id : Nat), s.current[i]? = some id → ∃ id', (forIds f (List.range s.current.length) s).s.current[i]? = some id' ∧
      g (trackOf s id) = some (trackOf (forIds f (List.range s.current.length) s).s id') := by
  obtain ⟨h1, h2, h3, h4⟩ := forIds_index f g hf _ s good List.nodup_range (by simp) he
  refine ⟨h1, h2, h3, ?_⟩
  intro i id hi
  have := h4 i id hi
  obtain ⟨hl, _⟩ := List.getElem?_eq_some_iff.1 hi
  rw [if_pos (by simpa using hl)] at this
  exact this

/-! ### Selecting a voice -/

theorem voices_trackOf (s : Score) (id : Nat) :
    (trackOf s id).voices = (s.vheap (s.heap id).voices).map (fun x => (x.1, (s.heap x.2).bare)) := by
  unfold Track.voices trackOf groupOf
  simp only [List.map_map]
  apply List.map_congr_left
  intro x _
  simp only [Function.comp_apply]
  by_cases h : x.2 = id
  · simp [h]
  · simp [h]

theorem lookup_map {α β : Type} (f : α → β) : ∀ (l : List (Int × α)) (n : Int),
    (l.map (fun x => (x.1, f x.2))).lookup n = (l.lookup n).map f := by
  intro l
  induction l with
  | nil => intro n; rfl
  | cons x l ih =>
    intro n
    obtain ⟨m, v⟩ := x
    simp only [List.map_cons, List.lookup_cons]
    cases h : (n == m) <;> simp [ih]

theorem enter_track {s : Score} (good : G s) {id : Nat} (hid : id ∈ s.current) {n : Int} {v : Nat}
    (hv : (s.vheap (s.heap id).voices).lookup n = some v) : Track.voice n (trackOf s id) = some (trackOf s v) := by
  have hm := lookup_mem _ _ _ hv
  obtain ⟨hvo, hte⟩ := good.voices.same id hid _ hm
  obtain ⟨hvl, hor⟩ := good.wf.vo_mem id (good.wf.cur_lt id hid) _ hm
  simp only at hvo hte hvl hor
  unfold Track.voice
  rw [voices_trackOf, lookup_map (fun i => (s.heap i).bare), hv]
  simp only [Option.map_some, Option.some.injEq, List.map_map]
  unfold trackOf groupOf templateOf
  rw [hvo, hte, hor]
  simp only [Track.mk.injEq, true_and, and_true]
  apply List.map_congr_left
  intro x hx
  have : x.1 = n ↔ x.2 = v := by
    constructor
    · intro h; exact congrArg Prod.snd (inj_of_nodup_map (good.voices.keys id hid) hx hm h)
    · intro h; exact congrArg Prod.fst (inj_of_nodup_map (good.voices.addrs id hid) hx hm h)
  simp only [Function.comp_apply, this]

theorem voices_ne {s : Score} (w : WF s) {id j : Nat} (hid : id ∈ s.current) (hj : j ∈ s.current) (hne : j ≠ id) :
    (s.heap j).voices ≠ (s.heap id).voices :=
  fun h => hne (w.cur_inj hj hid (w.vo_share j (w.cur_lt j hj) id (w.cur_lt id hid) h))

theorem addVoice_env (id : Nat) (n : Int) (s : Score) : (addVoice id n s).1.s.events = s.events ∧ (addVoice id n s).1.s.globals = s.globals ∧
    (addVoice id n s).1.s.markers = s.markers ∧ (addVoice id n s).1.s.vars = s.vars ∧ (addVoice id n s).1.s.chordMode = s.chordMode := by
  obtain ⟨_, _, _, h⟩ := addVoice_rest id n s
  rw [h]; exact ⟨rfl, rfl, rfl, rfl, rfl⟩

/-- Adding a voice, when the template exists. -/
theorem addVoice_track {s : Score} (good : G s) {id t : Nat} (hid : id ∈ s.current) (n : Int)
    (ht : (s.heap id).template = some t) :
    trackOf (addVoice id n s).1.s s.next = { trackOf s id with
      cell := (s.heap t).bare.clone
      group := (trackOf s id).voices.map (fun x => (x.1, some x.2)) ++ [(n, none)] } ∧
    ∀ j ∈ s.current, j ≠ id → trackOf (addVoice id n s).1.s j = trackOf s j := by
  have a := addVoice_added (s := s) n ht
  obtain ⟨e1, e2, e3, e4, e5⟩ := addVoice_env id n s
  generalize (addVoice id n s).1.s = s' at a e1 e2 e3 e4 e5
  have w := good.wf
  obtain ⟨t1, t2, t3, t4⟩ := good.voices.tmpl id hid t ht
  obtain ⟨t5, t6⟩ := w.tmpl id (w.cur_lt id hid) t ht
  have hnew : s'.heap s.next = (s.heap t).clone := by rw [a.heap, if_pos rfl]
  have hold : ∀ k < s.next, s'.heap k = s.heap k := fun k hk => by rw [a.heap, if_neg (by omega)]
  constructor
  · have hvs : (s'.heap s.next).voices = (s.heap id).voices := by rw [hnew]; exact t1
    have hts : (s'.heap s.next).template = some t := by rw [hnew]; exact t2
    have hos : (s'.heap s.next).origin = (s.heap id).origin := by rw [hnew]; exact t6
    rw [voices_trackOf]
    unfold trackOf groupOf templateOf notesOf
    rw [hvs, hts, hos, e1, e2, e3, e4, e5, hnew, ht]
    simp only [Option.map_some, hold t t5, Track.mk.injEq, and_true]
    refine ⟨rfl, ?_⟩
    rw [a.vheap, if_pos rfl, List.map_append, List.map_map]
    congr 1
    · apply List.map_congr_left
      intro x hx
      have := (w.vo_mem id (w.cur_lt id hid) x hx).1
      rw [if_neg (by omega), hold _ this]; rfl
    · simp
  · intro j hj hne
    refine trackOf_frame w (w.cur_lt j hj) (fun k hk _ => hold k hk) ?_ e1 e2 e3 e4 e5
    rw [a.vheap, if_neg (voices_ne w hid hj hne)]

/-- Making the template. -/
theorem template_track {s : Score} (good : G s) {id : Nat} (hid : id ∈ s.current)
    (hv : s.vheap (s.heap id).voices = []) :
    let s' := (s.alloc { (s.heap id).clone with template := some s.next }).2.modPart id (fun p => { p with template := some s.next })
    trackOf s' id = { trackOf s id with template := some (s.heap id).bare.clone } ∧
    (s'.heap id).template = some s.next ∧ (s'.heap s.next).bare = (s.heap id).bare.clone ∧
    ∀ j ∈ s.current, j ≠ id → trackOf s' j = trackOf s j := by
  have w := good.wf
  have hlt := w.cur_lt id hid
  have hh := template_heap s id hlt
  intro s'
  change ∀ i, s'.heap i = _ at hh
  have hself : s'.heap id = { s.heap id with template := some s.next } := by rw [hh, if_pos rfl]
  have htm : s'.heap s.next = { (s.heap id).clone with template := some s.next } := by rw [hh, if_neg (by omega), if_pos rfl]
  refine ⟨?_, by rw [hself], by rw [htm]; rfl, ?_⟩
  · have hg : groupOf s' id = [] := by
      unfold groupOf; rw [hself]
      show (s.vheap (s.heap id).voices).map _ = []
      rw [hv]; rfl
    have hg' : groupOf s id = [] := by unfold groupOf; rw [hv]; rfl
    unfold trackOf
    rw [hg, hg']
    unfold templateOf notesOf
    rw [hself]
    simp only [Option.map_some, htm]
    rfl
  · intro j hj hne
    refine trackOf_frame w (w.cur_lt j hj) ?_ rfl rfl rfl rfl rfl rfl
    intro k hk ho
    rw [hh, if_neg, if_neg (by omega)]
    intro e; subst e; exact hne (w.cur_inj hj hid ho.symm)

/-- `getVoice` on a current part. -/
theorem getVoice_track {s : Score} (good : G s) {id : Nat} (hid : id ∈ s.current) (n : Int) (he : (getVoice id n s).1.err = none) :
    Track.voice n (trackOf s id) = some (trackOf (getVoice id n s).1.s (getVoice id n s).2) ∧
    ∀ j ∈ s.current, j ≠ id → trackOf (getVoice id n s).1.s j = trackOf s j := by
  have w := good.wf
  simp only [getVoice] at he ⊢
  split
  · rename_i v hv
    exact ⟨enter_track good hid hv, fun _ _ _ => rfl⟩
  rename_i hv
  rw [hv] at he
  simp only at he
  have hl : (trackOf s id).voices.lookup n = none := by
    rw [voices_trackOf, lookup_map (fun i => (s.heap i).bare), hv]; rfl
  cases hg : s.vheap (s.heap id).voices with
  | cons x xs =>
    have ee : ensureTemplate id s = .ok s := by simp only [ensureTemplate, hg]
    rw [ee] at he ⊢
    simp only [Out.ok] at he ⊢
    cases ht : (s.heap id).template with
    | none => simp [addVoice, ht, Out.fail] at he
    | some t =>
      obtain ⟨a1, a2⟩ := addVoice_track good hid n ht
      refine ⟨?_, a2⟩
      have e2 : (addVoice id n s).2 = s.next := by simp only [addVoice, ht, Score.alloc]
      rw [e2, a1]
      unfold Track.voice
      rw [hl]
      have h1 : (trackOf s id).group = groupOf s id := rfl
      have h2 : (trackOf s id).template = some (s.heap t).bare := by
        show templateOf s id = _; unfold templateOf; rw [ht]; rfl
      have h3 : ∃ y ys, (trackOf s id).group = y :: ys := by
        rw [h1]; unfold groupOf; rw [hg]; exact ⟨_, _, rfl⟩
      obtain ⟨y, ys, h3⟩ := h3
      simp only [h3, h2]
  | nil =>
    cases ht : (s.heap id).template with
    | some t =>
      have ee : ensureTemplate id s = .fail (.panic "Part has no voices, but part.voiceTemplate is set") s := by
        simp only [ensureTemplate, hg, ht]
      rw [ee] at he; simp [Out.fail] at he
    | none =>
      have ee : ensureTemplate id s = .ok ((s.alloc { (s.heap id).clone with template := some s.next }).2.modPart id
          (fun p => { p with template := some s.next })) := by
        simp only [ensureTemplate, hg, ht]; rfl
      have hst : Step (fun _ => True) False s ((s.alloc { (s.heap id).clone with template := some s.next }).2.modPart id
          (fun p => { p with template := some s.next })) := .template hid hg ht
      have hvh : ((s.alloc { (s.heap id).clone with template := some s.next }).2.modPart id
          (fun p => { p with template := some s.next })).vheap = s.vheap := rfl
      have hvp := template_heap s id (w.cur_lt id hid) id
      rw [if_pos rfl] at hvp
      have hcu : ((s.alloc { (s.heap id).clone with template := some s.next }).2.modPart id
          (fun p => { p with template := some s.next })).current = s.current := rfl
      obtain ⟨t1, t2, t3, t4⟩ := template_track good hid hg
      rw [ee] at he ⊢
      generalize (s.alloc { (s.heap id).clone with template := some s.next }).2.modPart id
          (fun p => { p with template := some s.next }) = s1 at *
      simp only [Out.ok] at he ⊢
      have good1 := hst.good good
      obtain ⟨a1, a2⟩ := addVoice_track good1 (by rw [hcu]; exact hid) n t2
      have e2 : (addVoice id n s1).2 = s1.next := by simp only [addVoice, t2, Score.alloc]
      constructor
      · rw [e2, a1, t3, voices_trackOf, hvh, hvp, t1]
        simp only [hg]
        unfold Track.voice
        rw [hl]
        have h1 : (trackOf s id).group = [] := by show groupOf s id = []; unfold groupOf; rw [hg]; rfl
        have h2 : (trackOf s id).template = none := by show templateOf s id = none; unfold templateOf; rw [ht]; rfl
        simp only [h1, h2]
        rfl
      · intro j hj hne
        rw [a2 j (by rw [hcu]; exact hj) hne, t4 j hj hne]

theorem trackOf_current (s : Score) (l : List Nat) (j : Nat) : trackOf { s with current := l } j = trackOf s j := rfl

theorem getVoice_env (id : Nat) (n : Int) (s : Score) : (getVoice id n s).1.s.vars = s.vars := by
  simp only [getVoice]
  split
  · rfl
  · have h : (ensureTemplate id s).s.vars = s.vars := by
      simp only [ensureTemplate]
      split
      · rfl
      · split <;> rfl
    split
    · rename_i e s' he; rw [he] at h; exact h
    · rename_i s' he; rw [he] at h
      rw [(addVoice_env id n s').2.2.2.1]; exact h

theorem voiceMarkerAt_index (n : Int) (s : Score) (i id : Nat) (good : G s) (hi : s.current[i]? = some id)
    (he : (voiceMarkerAt n i s).err = none) : IndexStep s (voiceMarkerAt n i s).s i id (Track.voice n) := by
  have w := good.wf
  have hid := List.mem_of_getElem? hi
  obtain ⟨a, b, c⟩ := getVoice_steps (D := False) id n s good hid
  have hev := getVoice_env id n s
  simp only [voiceMarkerAt, hi] at he ⊢
  split
  · rename_i e s' v h; rw [h] at he; simp [Out.fail] at he
  · rename_i s' v h
    have tr := getVoice_track good hid n (by rw [h])
    rw [h] at a b c tr hev
    simp only at a b c tr hev
    have hm : id ∈ s'.current := by rw [b]; exact hid
    have g' := a.good good
    have hset : replaceByOrigin s' (s'.heap id).origin v s'.current = s.current.set i v := by
      rw [replace_eq_set (s := s') (s' := s') g'.wf (by rw [b]; exact hi) (fun _ _ => rfl), b]
    refine ⟨a.tail (.enterVoice hm (c trivial)), hev, ⟨v, hset, ?_⟩, ?_⟩
    · rw [tr.1]; rfl
    · intro j hj hne
      exact (tr.2 j hj hne)

/-! ### The end of a voice group -/

theorem lastToFinish_track (s : Score) : ∀ (l : List (Int × Nat)) (best : Nat),
    Track.lastToFinish (s.heap best).bare (l.map (fun x => (x.1, (s.heap x.2).bare))) = (s.heap (lastToFinish s best l)).bare := by
  intro l
  induction l with
  | nil => intro best; rfl
  | cons x l ih =>
    intro best
    obtain ⟨m, v⟩ := x
    simp only [List.map_cons, Track.lastToFinish, lastToFinish]
    rw [← ih]
    congr 1
    show (if (s.heap v).offset > (s.heap best).offset then _ else _) = _
    split <;> rfl

theorem voiceEndAt_index (s : Score) (i id : Nat) (good : G s) (hi : s.current[i]? = some id) :
    IndexStep s (voiceEndAt i s).s i id Track.voiceEnd := by
  have w := good.wf
  have hid := List.mem_of_getElem? hi
  have hst : Steps (fun _ => True) False s (voiceEndAt i s).s := .one (.endVoices i)
  cases hg : (s.vheap (s.heap id).voices).getLast? with
  | none =>
    have e : voiceEndAt i s = .ok s := by simp only [voiceEndAt, hi, hg]
    rw [e] at hst ⊢
    refine ⟨hst, rfl, ⟨id, ?_, ?_⟩, fun _ _ _ => rfl⟩
    · apply List.ext_getElem?
      intro k
      rw [List.getElem?_set]
      split
      · rename_i h; subst h
        obtain ⟨hl, _⟩ := List.getElem?_eq_some_iff.1 hi
        rw [if_pos hl]; exact hi
      · rfl
    · unfold Track.voiceEnd
      rw [voices_trackOf, List.getLast?_map, hg]; rfl
  | some last =>
    obtain ⟨m, last⟩ := last
    obtain ⟨x, hx, hxe⟩ := chosen_voice s _ m last hg
    have hch : lastToFinish s last (s.vheap (s.heap id).voices).dropLast = x.2 := hxe
    obtain ⟨vlt, vor⟩ := w.vo_mem id (w.cur_lt id hid) x hx
    have e : (voiceEndAt i s).s.current = s.current.set i x.2 ∧
        (∀ j, (voiceEndAt i s).s.heap j = if j = x.2 then { s.heap x.2 with voices := s.vnext, template := none } else s.heap j) ∧
        (∀ j, (voiceEndAt i s).s.vheap j = if j = s.vnext then [] else s.vheap j) ∧
        (voiceEndAt i s).s.events = s.events ∧ (voiceEndAt i s).s.globals = s.globals ∧ (voiceEndAt i s).s.markers = s.markers ∧
        (voiceEndAt i s).s.vars = s.vars ∧ (voiceEndAt i s).s.chordMode = s.chordMode := by
      simp only [voiceEndAt, hi, hg, hch]
      exact ⟨rfl, fun j => rfl, fun j => rfl, rfl, rfl, rfl, rfl, rfl⟩
    obtain ⟨e1, e2, e3, e4, e5, e6, e7, e8⟩ := e
    generalize (voiceEndAt i s).s = t at hst e1 e2 e3 e4 e5 e6 e7 e8 ⊢
    have self : t.heap x.2 = { s.heap x.2 with voices := s.vnext, template := none } := by rw [e2, if_pos rfl]
    refine ⟨hst, e7, ⟨x.2, e1, ?_⟩, ?_⟩
    · unfold Track.voiceEnd
      have hgl : (trackOf s id).voices.getLast? = some (m, (s.heap last).bare) := by
        rw [voices_trackOf, List.getLast?_map, hg]; rfl
      rw [hgl]
      simp only [voices_trackOf, ← List.map_dropLast, lastToFinish_track, hch]
      unfold trackOf groupOf templateOf notesOf
      rw [self, e3, if_pos rfl, e4, e5, e6, e7, e8]
      simp only [vor]
      rfl
    · intro j hj hne
      refine trackOf_frame w (w.cur_lt j hj) ?_ ?_ e4 e5 e6 e7 e8
      · intro k hk ho
        rw [e2, if_neg]
        intro h; subst h; exact hne (w.cur_inj hj hid (by rw [← ho, vor]))
      · rw [e3, if_neg]
        have := w.vo_lt j (w.cur_lt j hj); omega

end Alda
