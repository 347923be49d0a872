import Verif.Lemmas.TrackLine
/-!
What a voice group does to a track.
-/
namespace Alda
open Spec

/-- The variables of a track hold tame events. -/
def VarsTame (mo : Mode) (t : Track) : Prop := mo.vars = true → ∀ n es, t.vars n = some es → TameL mo mo.varVoices es

/-- Nothing happened to the voices. -/
structure Quiet (mo : Mode) (t t' : Track) : Prop where
  group : t'.group = t.group
  template : t'.template = t.template
  vars : VarsTame mo t → VarsTame mo t'

theorem Quiet.refl (mo : Mode) (t : Track) : Quiet mo t t := ⟨rfl, rfl, fun h => h⟩

theorem Quiet.trans {mo : Mode} {t u v : Track} (a : Quiet mo t u) (b : Quiet mo u v) : Quiet mo t v :=
  ⟨b.group.trans a.group, b.template.trans a.template, fun h => b.vars (a.vars h)⟩

theorem Quiet.of_eq {mo : Mode} {t t' : Track} (h1 : t'.group = t.group) (h2 : t'.template = t.template) (h3 : t'.vars = t.vars) : Quiet mo t t' :=
  ⟨h1, h2, fun h => by unfold VarsTame at *; rw [h3]; exact h⟩

theorem bind_some_iff {α β : Type} {o : Option α} {f : α → Option β} {b : β} (h : o.bind f = some b) : ∃ a, o = some a ∧ f a = some b := by
  cases o with
  | none => simp at h
  | some a => exact ⟨a, rfl, h⟩

section
variable {mo : Mode}

theorem applyGlobals_quiet {t t' : Track} (h : Track.applyGlobals t = some t') : Quiet mo t t' := by
  obtain ⟨p, rfl, _⟩ := applyGlobals_track h; exact .of_eq rfl rfl rfl

theorem beforeNote_quiet {d : Dur} {t t' : Track} (h : Track.beforeNote d t = some t') : Quiet mo t t' := by
  unfold Track.beforeNote at h
  obtain ⟨u, h1, h2⟩ := bind_some_iff h
  split at h2
  · simp only [Option.some.injEq] at h2; subst h2
    split at h1
    · simp only [Option.some.injEq] at h1; subst h1; exact .refl _ _
    · exact applyGlobals_quiet h1
  · simp at h2

theorem leaf_quiet (l : Leaf) {t t' : Track} (h : Track.leaf l t = some t') : Quiet mo t t' := by
  cases l with
  | note pi d sl =>
    simp only [Track.leaf] at h
    obtain ⟨u, h1, h2⟩ := bind_some_iff h
    refine (beforeNote_quiet h1).trans ?_
    unfold Track.note at h2
    simp only at h2
    split at h2
    · simp at h2
    · obtain ⟨v, h3, h4⟩ := bind_some_iff h2
      simp only [Option.some.injEq] at h4; subst h4
      refine Quiet.trans (u := v) ?_ (.of_eq rfl rfl rfl)
      clear h h2
      generalize (if sl = true then _ else _) = a at h3
      split at h3
      · unfold Track.emit at h3
        simp only at h3
        split at h3
        · simp at h3
        · simp only [Option.some.injEq] at h3; subst h3; exact .of_eq rfl rfl rfl
      · simp only [Option.some.injEq] at h3; subst h3; exact .refl _ _
  | rest d =>
    simp only [Track.leaf] at h
    obtain ⟨u, h1, h2⟩ := bind_some_iff h
    refine (beforeNote_quiet h1).trans ?_
    unfold Track.rest at h2
    simp only at h2
    split at h2
    · simp at h2
    · simp only [Option.some.injEq] at h2; subst h2; exact .of_eq rfl rfl rfl
  | attr u =>
    simp only [Track.leaf, Track.attr] at h
    split at h
    · simp at h
    · simp only [Option.some.injEq] at h; subst h; exact .of_eq rfl rfl rfl
  | globalAttr u =>
    simp only [Track.leaf, Track.globalAttr, Option.some.injEq] at h; subst h; exact .of_eq rfl rfl rfl

theorem repeated_quiet (body : Track → Option Track) (hb : ∀ t t', VarsTame mo t → body t = some t' → Quiet mo t t') :
    ∀ (k : Nat) (r : Int) (t t' : Track), VarsTame mo t → Track.repeated body k r t = some t' → Quiet mo t t'
  | 0, _, t, t', _, h => by simp only [Track.repeated, Option.some.injEq] at h; subst h; exact .refl _ _
  | k + 1, r, t, t', v, h => by
    simp only [Track.repeated, Track.setRepetition, Option.bind_some] at h
    obtain ⟨u, h1, h2⟩ := bind_some_iff h
    have q0 : Quiet mo t (t.set { t.cell with repetition := r }) := .of_eq rfl rfl rfl
    have q1 := q0.trans (hb _ _ (q0.vars v) h1)
    exact q1.trans (repeated_quiet body hb k (r + 1) u t' (q1.vars v) h2)

mutual
theorem updWith_quiet (hvv : mo.varVoices = false) (deref : List Upd → Track → Option Track)
    (hderef : ∀ es t t', VarsTame mo t → TameL mo false es → deref es t = some t' → Quiet mo t t') :
    ∀ (e : Upd) (t t' : Track), Tame mo false e → VarsTame mo t → Track.updWith deref e t = some t' → Quiet mo t t'
  | .leaf l, t, t', _, _, h => by simp only [Track.updWith] at h; exact leaf_quiet l h
  | .lisp es, t, t', _, _, h => by
    simp only [Track.updWith] at h
    split at h
    · simp at h
    · simp only [Option.some.injEq] at h; subst h; exact .refl _ _
    · exact leaf_quiet _ h
  | .lispNil, t, t', _, _, h | .barline, t, t', _, _, h => by
    simp only [Track.updWith, Option.some.injEq] at h; subst h; exact .refl _ _
  | .chord es, t, t', ht, v, h => by
    simp only [Track.updWith] at h; simp only [Tame] at ht
    obtain ⟨u, h1, h2⟩ := bind_some_iff h
    obtain ⟨⟨m, w⟩, h3, h4⟩ := bind_some_iff h2
    have q1 : Quiet mo t { u with chordMode := true } := (applyGlobals_quiet h1).trans (.of_eq rfl rfl rfl)
    refine q1.trans ((chordWith_quiet hvv deref hderef es none _ m w ht (q1.vars v) h3).trans ?_)
    simp only [Track.chordAdvance, Option.some.injEq] at h4; subst h4; exact .of_eq rfl rfl rfl
  | .cram es d, t, t', ht, v, h => by
    simp only [Track.updWith] at h; simp only [Tame] at ht
    obtain ⟨u, h1, h2⟩ := bind_some_iff h
    obtain ⟨w, h3, h4⟩ := bind_some_iff h2
    have q1 : Quiet mo t u := by
      unfold Track.cramScale at h1
      split at h1
      · simp at h1
      · simp only [Option.some.injEq] at h1; subst h1; exact .of_eq rfl rfl rfl
    refine q1.trans ((listWith_quiet hvv deref hderef es u w ht (q1.vars v) h3).trans ?_)
    simp only [Track.cramRestore, Option.some.injEq] at h4; subst h4; exact .of_eq rfl rfl rfl
  | .seq es, t, t', ht, v, h => by
    simp only [Track.updWith] at h; simp only [Tame] at ht
    exact listWith_quiet hvv deref hderef es t t' ht v h
  | .rep e n, t, t', ht, v, h => by
    simp only [Track.updWith] at h; simp only [Tame] at ht
    exact repeated_quiet _ (fun t t' v h => updWith_quiet hvv deref hderef e t t' ht v h) _ _ t t' v h
  | .onReps rs e, t, t', ht, v, h => by
    simp only [Track.updWith] at h; simp only [Tame] at ht
    split at h
    · exact updWith_quiet hvv deref hderef e t t' ht.2 v h
    · simp only [Option.some.injEq] at h; subst h; exact .refl _ _
  | .voice n, t, t', ht, _, _ | .voiceEnd, t, t', ht, _, _ => by simp [Tame] at ht
  | .marker n, t, t', _, _, h => by
    simp only [Track.updWith, Track.marker, Option.some.injEq] at h; subst h; exact .of_eq rfl rfl rfl
  | .atMarker n, t, t', _, _, h => by
    simp only [Track.updWith, Track.atMarker] at h
    obtain ⟨u, h1, h2⟩ := bind_some_iff h
    refine (applyGlobals_quiet h1).trans ?_
    split at h2
    · simp at h2
    · simp only [Track.jump, Option.some.injEq] at h2; subst h2; exact .of_eq rfl rfl rfl
  | .varDef n es, t, t', ht, v, h => by
    simp only [Track.updWith, Track.varDef] at h; simp only [Tame] at ht
    split at h
    · simp at h
    · rename_i vs hvs
      simp only [Option.some.injEq] at h; subst h
      refine ⟨rfl, rfl, fun v hm m es' hes => ?_⟩
      simp only at hes
      split at hes
      · simp only [Option.some.injEq] at hes; subst hes
        exact varValues_tame _ v _ es vs ht.2 hvs
      · exact v hm m es' hes
  | .varRef n, t, t', ht, v, h => by
    simp only [Track.updWith] at h; simp only [Tame] at ht
    split at h
    · simp at h
    · rename_i es hes
      have := v ht.1 n es hes
      rw [hvv] at this
      exact hderef es t t' v this h
  | .partDecl _ _, t, t', ht, _, _ => by simp only [Tame] at ht
theorem listWith_quiet (hvv : mo.varVoices = false) (deref : List Upd → Track → Option Track)
    (hderef : ∀ es t t', VarsTame mo t → TameL mo false es → deref es t = some t' → Quiet mo t t') :
    ∀ (es : List Upd) (t t' : Track), TameL mo false es → VarsTame mo t → Track.listWith deref es t = some t' → Quiet mo t t'
  | [], t, t', _, _, h => by simp only [Track.listWith, Option.some.injEq] at h; subst h; exact .refl _ _
  | e :: es, t, t', ht, v, h => by
    simp only [Track.listWith] at h; simp only [TameL] at ht
    obtain ⟨u, h1, h2⟩ := bind_some_iff h
    have q1 := updWith_quiet hvv deref hderef e t u ht.1 v h1
    exact q1.trans (listWith_quiet hvv deref hderef es u t' ht.2 (q1.vars v) h2)
theorem chordWith_quiet (hvv : mo.varVoices = false) (deref : List Upd → Track → Option Track)
    (hderef : ∀ es t t', VarsTame mo t → TameL mo false es → deref es t = some t' → Quiet mo t t') :
    ∀ (es : List Upd) (m : Option Rat) (t : Track) (m' : Option Rat) (t' : Track), TameL mo false es → VarsTame mo t →
      Track.chordWith deref es m t = some (m', t') → Quiet mo t t'
  | [], m, t, m', t', _, _, h => by
    simp only [Track.chordWith, Option.some.injEq, Prod.mk.injEq] at h; obtain ⟨_, rfl⟩ := h; exact .refl _ _
  | e :: es, m, t, m', t', ht, v, h => by
    simp only [Track.chordWith] at h; simp only [TameL] at ht
    split at h
    · simp at h
    · obtain ⟨u, h1, h2⟩ := bind_some_iff h
      have q1 := updWith_quiet hvv deref hderef e t u ht.1 v h1
      exact q1.trans (chordWith_quiet hvv deref hderef es _ u m' t' ht.2 (q1.vars v) h2)
end

theorem list_quiet (hvv : mo.varVoices = false) (es : List Upd) (t t' : Track) (ht : TameL mo false es) (v : VarsTame mo t)
    (h : Track.list es t = some t') : Quiet mo t t' :=
  listWith_quiet hvv _ (fun es t t' v ht h => listWith_quiet hvv _ (fun _ _ _ _ _ h => by simp at h) es t t' ht v h) es t t' ht v h

end

theorem Track.list_append (es fs : List Upd) (t : Track) : Track.list (es ++ fs) t = (Track.list es t).bind (Track.list fs) := by
  unfold Track.list
  induction es generalizing t with
  | nil => rfl
  | cons e es ih =>
    simp only [List.cons_append, Track.listWith]
    cases Track.updWith (Track.listWith fun _ _ => none) e t with
    | none => rfl
    | some u => simp only [Option.bind_some]; exact ih u

/-- The state of a track inside a voice group: `vs` are the voices with their attributes, `c` is the one being played. -/
structure InGroup (t : Track) (a0 : Attributes) (vs : List (Int × Attributes)) (c : Int) : Prop where
  template : ∃ p, t.template = some p ∧ attributes p = a0
  voices : t.voices.map (fun x => (x.1, attributes x.2)) = vs
  nodup : (vs.map (·.1)).Nodup
  cur : ∀ x ∈ t.group, x.2 = none ↔ x.1 = c
  mem : c ∈ vs.map (·.1)

theorem place_present {α : Type} {l : List (Int × α)} {n : Int} (h : n ∈ l.map (·.1)) (a : α) :
    place l n a = l.map (fun x => if x.1 = n then (n, a) else x) := by unfold place; rw [if_pos h]

theorem place_absent {α : Type} {l : List (Int × α)} {n : Int} (h : n ∉ l.map (·.1)) (a : α) : place l n a = l ++ [(n, a)] := by
  unfold place; rw [if_neg h]

theorem place_keys {α : Type} (l : List (Int × α)) (n : Int) (a : α) :
    (place l n a).map (·.1) = if n ∈ l.map (·.1) then l.map (·.1) else l.map (·.1) ++ [n] := by
  unfold place
  split
  · rw [List.map_map]
    apply List.map_congr_left
    intro x _
    simp only [Function.comp_apply]
    split
    · rename_i h; exact h.symm
    · rfl
  · simp

theorem place_place {α : Type} (l : List (Int × α)) (n : Int) (a b : α) : place (place l n a) n b = place l n b := by
  by_cases h : n ∈ l.map (·.1)
  · have h' : n ∈ (place l n a).map (·.1) := by rw [place_keys, if_pos h]; exact h
    rw [place_present h', place_present h, place_present h, List.map_map]
    apply List.map_congr_left
    intro x _
    simp only [Function.comp_apply]
    split
    · simp
    · rfl
  · have h' : n ∈ (place l n a).map (·.1) := by rw [place_keys, if_neg h]; simp
    rw [place_present h', place_absent h, place_absent h, List.map_append]
    congr 1
    · conv => rhs; rw [← List.map_id l]
      apply List.map_congr_left
      intro x hx
      have : x.1 ≠ n := fun e => h (List.mem_map.2 ⟨x, hx, e⟩)
      simp [this]
    · simp

theorem place_nodup {α : Type} {l : List (Int × α)} (n : Int) (a : α) (h : (l.map (·.1)).Nodup) : ((place l n a).map (·.1)).Nodup := by
  rw [place_keys]
  split
  · exact h
  · rename_i hn
    rw [List.nodup_append]
    refine ⟨h, by simp, ?_⟩
    intro x hx y hy
    simp only [List.mem_singleton] at hy
    subst hy
    intro e; subst e; exact hn hx

theorem group_keys (t : Track) : t.voices.map (·.1) = t.group.map (·.1) := by
  unfold Track.voices; rw [List.map_map]; rfl

theorem InGroup.keys {t : Track} {a0 : Attributes} {vs : List (Int × Attributes)} {c : Int} (g : InGroup t a0 vs c) : t.group.map (·.1) = vs.map (·.1) := by
  rw [← g.voices, ← group_keys, List.map_map]; rfl

/-- Events without voices inside a voice. -/
theorem InGroup.play {t t' : Track} {a0 : Attributes} {vs : List (Int × Attributes)} {c : Int} (g : InGroup t a0 vs c)
    (h1 : t'.group = t.group) (h2 : t'.template = t.template) : InGroup t' a0 (place vs c (attributes t'.cell)) c := by
  refine ⟨by rw [h2]; exact g.template, ?_, place_nodup _ _ g.nodup, by rw [h1]; exact g.cur, ?_⟩
  · rw [place_present g.mem, ← g.voices]
    unfold Track.voices
    rw [h1, List.map_map, List.map_map, List.map_map]
    apply List.map_congr_left
    intro x hx
    simp only [Function.comp_apply]
    have := g.cur x hx
    match hx2 : x.2 with
    | none => rw [hx2] at this; rw [if_pos (this.1 rfl)]; simp [this.1 rfl]
    | some p => rw [hx2] at this; rw [if_neg (fun e => by simpa using this.2 e)]; simp
  · rw [place_keys, if_pos g.mem]; exact g.mem

theorem lookup_attributes (l : List (Int × Part)) (n : Int) :
    (l.map (fun x => (x.1, attributes x.2))).lookup n = (l.lookup n).map attributes := by
  induction l with
  | nil => rfl
  | cons x xs ih =>
    rw [List.map_cons, List.lookup_cons, List.lookup_cons]
    cases h : n == x.1 with
    | true => simp
    | false => simpa using ih

theorem lookup_mem_keys {α : Type} {l : List (Int × α)} {n : Int} : l.lookup n = none ↔ n ∉ l.map (·.1) := by
  induction l with
  | nil => simp
  | cons x xs ih =>
    rw [List.lookup_cons]
    by_cases h : n = x.1
    · subst h; simp
    · have : (n == x.1) = false := by simpa using h
      rw [this]; simp [ih, h]

theorem lookup_nodup {α : Type} {l : List (Int × α)} {n : Int} {a : α} (hn : (l.map (·.1)).Nodup) (h : l.lookup n = some a) : ∀ x ∈ l, x.1 = n → x.2 = a := by
  induction l with
  | nil => simp
  | cons y ys ih =>
    intro x hx e
    rw [List.map_cons, List.nodup_cons] at hn
    rw [List.lookup_cons] at h
    by_cases hy : n = y.1
    · subst hy
      simp only [BEq.rfl, Option.some.injEq] at h
      rcases List.mem_cons.1 hx with rfl | hx
      · exact h
      · exact absurd (List.mem_map.2 ⟨x, hx, e⟩) hn.1
    · have : (n == y.1) = false := by simpa using hy
      rw [this] at h
      rcases List.mem_cons.1 hx with rfl | hx
      · exact absurd e.symm hy
      · exact ih hn.2 h x hx e

/-- A voice inside a voice group. -/
theorem InGroup.voice {t t' : Track} {a0 : Attributes} {vs : List (Int × Attributes)} {c : Int} (g : InGroup t a0 vs c) (n : Int)
    (h : Track.voice n t = some t') : attributes t'.cell = (vs.lookup n).getD a0 ∧ InGroup t' a0 (place vs n (attributes t'.cell)) n := by
  have hl : vs.lookup n = (t.voices.lookup n).map attributes := by rw [← g.voices, lookup_attributes]
  have nd : (t.voices.map (·.1)).Nodup := by rw [group_keys, g.keys]; exact g.nodup
  unfold Track.voice at h
  split at h
  · rename_i p hp
    simp only [Option.some.injEq] at h
    have hcell : attributes t'.cell = attributes p := by subst h; rfl
    have hmem : n ∈ vs.map (·.1) := by
      by_cases hm : n ∈ vs.map (·.1)
      · exact hm
      · rw [← lookup_mem_keys, hl, hp] at hm; simp at hm
    refine ⟨by rw [hl, hp, hcell]; rfl, ?_⟩
    have hvoices : t'.voices = t.voices := by
      subst h
      unfold Track.voices
      simp only [List.map_map]
      apply List.map_congr_left
      intro x hx
      simp only [Function.comp_apply]
      have := lookup_nodup nd hp (x.1, x.2.getD t.cell) (List.mem_map.2 ⟨x, hx, rfl⟩)
      simp only at this
      by_cases he : x.1 = n
      · rw [if_pos he]; simp only [Option.getD_none]; rw [this he]
      · rw [if_neg he]; rfl
    refine ⟨by subst h; exact g.template, ?_, place_nodup _ _ g.nodup, ?_, by rw [place_keys, if_pos hmem]; exact hmem⟩
    · rw [hvoices, g.voices, place_present hmem]
      conv => lhs; rw [← List.map_id vs]
      apply List.map_congr_left
      intro x hx
      simp only [id]
      split
      · rename_i he
        have : vs.lookup n = some (attributes p) := by rw [hl, hp]; rfl
        have := lookup_nodup g.nodup this x hx he
        rw [hcell, ← this, ← he]
      · rfl
    · subst h
      intro x hx
      obtain ⟨y, hy, rfl⟩ := List.mem_map.1 hx
      simp only
      split
      · rename_i he; simp [he]
      · rename_i he; simp [he]
  · rename_i hn
    have hlk : vs.lookup n = none := by rw [hl, hn]; rfl
    have hmem : n ∉ vs.map (·.1) := lookup_mem_keys.1 hlk
    obtain ⟨c0, hc0, ha0⟩ := g.template
    split at h
    · simp at h
    · rename_i h1 h2
      have := g.mem
      rw [← g.keys, h1] at this; simp at this
    · simp at h
    · rename_i c1 h1 h2
      rw [hc0, Option.some.injEq] at h2; subst h2
      simp only [Option.some.injEq] at h
      have hcell : attributes t'.cell = a0 := by subst h; exact ha0
      refine ⟨by rw [hlk, hcell]; rfl, ?_⟩
      refine ⟨by subst h; exact ⟨c0, hc0, ha0⟩, ?_, place_nodup _ _ g.nodup, ?_, by rw [place_keys, if_neg hmem]; simp⟩
      · rw [place_absent hmem, ← g.voices, hcell]
        subst h
        simp only [Track.voices, List.map_append, List.map_map, List.map_cons, List.map_nil, Option.getD_none]
        congr 1
        show [(n, attributes c0.clone)] = _
        rw [← ha0]; rfl
      · subst h
        intro x hx
        rcases List.mem_append.1 hx with hx | hx
        · obtain ⟨y, hy, rfl⟩ := List.mem_map.1 hx
          simp only [reduceCtorEq, false_iff]
          intro e
          apply hmem
          rw [← g.keys, ← group_keys]
          exact List.mem_map.2 ⟨y, hy, e⟩
        · simp only [List.mem_singleton] at hx; subst hx; simp

/-- The first voice of a voice group. -/
theorem first_voice {t t' : Track} (hg : t.group = []) (n : Int) (h : Track.voice n t = some t') :
    attributes t'.cell = attributes t.cell ∧ InGroup t' (attributes t.cell) [(n, attributes t.cell)] n := by
  unfold Track.voice at h
  have : t.voices = [] := by unfold Track.voices; rw [hg]; rfl
  rw [this] at h
  simp only [List.lookup_nil] at h
  rw [hg] at h
  split at h
  · simp at h
  · simp only [Option.some.injEq] at h; subst h
    exact ⟨rfl, ⟨_, rfl, rfl⟩, rfl, by simp, by simp, by simp⟩
  · simp at h
  · simp_all

theorem lastToFinish_cases : ∀ (l : List (Int × Part)) (best : Part),
    (Track.lastToFinish best l = best ∧ ∀ x ∈ l, x.2.offset ≤ best.offset) ∨
    ∃ (j : Nat) (n : Int), l[j]? = some (n, Track.lastToFinish best l) ∧ best.offset < (Track.lastToFinish best l).offset ∧
      (∀ x ∈ l, x.2.offset ≤ (Track.lastToFinish best l).offset) ∧ ∀ k < j, ∀ x, l[k]? = some x → x.2.offset < (Track.lastToFinish best l).offset
  | [], best => Or.inl ⟨rfl, by simp⟩
  | (m, v) :: vs, best => by
    simp only [Track.lastToFinish]
    by_cases h : v.offset > best.offset
    · rw [if_pos h]
      right
      rcases lastToFinish_cases vs v with ⟨h1, h2⟩ | ⟨j, n, h1, h2, h3, h4⟩
      · rw [h1]
        refine ⟨0, m, rfl, h, ?_, by simp⟩
        intro x hx
        rcases List.mem_cons.1 hx with rfl | hx
        · exact Rat.le_refl
        · exact h2 x hx
      · refine ⟨j + 1, n, h1, by grind, ?_, ?_⟩
        · intro x hx
          rcases List.mem_cons.1 hx with rfl | hx
          · simp only; grind
          · exact h3 x hx
        · intro k hk x hx
          cases k with
          | zero => simp only [List.getElem?_cons_zero, Option.some.injEq] at hx; subst hx; exact h2
          | succ k => exact h4 k (by omega) x (by simpa using hx)
    · rw [if_neg h]
      rcases lastToFinish_cases vs best with ⟨h1, h2⟩ | ⟨j, n, h1, h2, h3, h4⟩
      · left
        refine ⟨h1, ?_⟩
        intro x hx
        rcases List.mem_cons.1 hx with rfl | hx
        · simp only; grind
        · exact h2 x hx
      · right
        refine ⟨j + 1, n, h1, h2, ?_, ?_⟩
        · intro x hx
          rcases List.mem_cons.1 hx with rfl | hx
          · simp only; grind
          · exact h3 x hx
        · intro k hk x hx
          cases k with
          | zero => simp only [List.getElem?_cons_zero, Option.some.injEq] at hx; subst hx; simp only; grind
          | succ k => exact h4 k (by omega) x (by simpa using hx)

/-- The end of a voice group. -/
theorem InGroup.finish {t t' : Track} {a0 : Attributes} {vs : List (Int × Attributes)} {c : Int} (g : InGroup t a0 vs c)
    (h : Track.voiceEnd t = some t') : Furthest vs (attributes t'.cell) := by
  unfold Track.voiceEnd at h
  split at h
  · rename_i hn
    rw [List.getLast?_eq_none_iff] at hn
    have := g.mem
    rw [← g.voices, hn] at this; simp at this
  · rename_i m last hlast
    simp only [Option.some.injEq] at h
    have hcell : attributes t'.cell = attributes (Track.lastToFinish last t.voices.dropLast) := by subst h; rfl
    rw [hcell, ← g.voices]
    have hsplit : t.voices = t.voices.dropLast ++ [(m, last)] := by
      obtain ⟨ys, hy⟩ := List.getLast?_eq_some_iff.1 hlast
      rw [hy]; simp
    generalize t.voices.dropLast = l at hsplit
    rw [hsplit]
    have pos : ∀ p : Part, (attributes p).position = p.offset := fun _ => rfl
    rcases lastToFinish_cases l last with ⟨h1, h2⟩ | ⟨j, n, h1, h2, h3, h4⟩
    · rw [h1]
      refine ⟨l.length, m, by simp, ?_, ?_, ?_⟩
      · intro x hx
        simp only [List.map_append, List.map_cons, List.map_nil, List.mem_append, List.mem_map, List.mem_singleton] at hx
        rcases hx with ⟨y, hy, rfl⟩ | rfl
        · exact h2 y hy
        · exact Rat.le_refl
      · intro x hx _; simp
      · intro hlt; simp at hlt
    · refine ⟨j, n, ?_, ?_, ?_, ?_⟩
      · have hlt := (List.getElem?_eq_some_iff.1 h1).1
        rw [List.map_append, List.getElem?_append_left (by simpa using hlt), List.getElem?_map, h1]; rfl
      · intro x hx
        simp only [List.map_append, List.map_cons, List.map_nil, List.mem_append, List.mem_map, List.mem_singleton] at hx
        rcases hx with ⟨y, hy, rfl⟩ | rfl
        · exact h3 y hy
        · simp only [pos]; grind
      · intro x hx he
        simp only [List.map_append, List.map_cons, List.map_nil, List.getLast?_append, List.getLast?_singleton, Option.some_or, Option.some.injEq] at hx
        subst hx
        simp only [pos] at he; grind
      · intro _ k hk x hx
        have hlt := (List.getElem?_eq_some_iff.1 h1).1
        rw [List.map_append, List.getElem?_append_left (by simp; omega), List.getElem?_map] at hx
        obtain ⟨y, hy, rfl⟩ := Option.map_eq_some_iff.1 hx
        exact h4 k hk y hy

theorem reached_snoc {α : Type} (l : List (Int × α)) (n : Int) (a : α) : reached (l ++ [(n, a)]) = place (reached l) n a := by
  unfold reached; rw [List.foldl_append]; rfl

/-- What is known about the voices of a group. -/
structure GroupOk (segs : List (Int × List Upd)) (t : Track) (stops : List Attributes) : Prop where
  length : stops.length = segs.length
  starts : ∀ (k : Nat) n es, segs[k]? = some (n, es) → ∃ u, Track.list (playVoices (segs.take k) ++ [.voice n]) t = some u ∧
    attributes u.cell = ((reached (((segs.take k).map (·.1)).zip stops)).lookup n).getD (attributes t.cell)
  stops : ∀ (k : Nat) n es, segs[k]? = some (n, es) → ∃ u, Track.list (playVoices (segs.take (k + 1))) t = some u ∧ stops[k]? = some (attributes u.cell)

theorem playVoices_snoc (segs : List (Int × List Upd)) (x : Int × List Upd) : playVoices (segs ++ [x]) = (playVoices segs ++ [.voice x.1]) ++ x.2 := by
  simp [playVoices]

theorem zip_take {α β : Type} (l : List α) (x : List α) (m y : List β) (h : m.length = l.length) (k : Nat) (hk : k ≤ l.length) :
    ((l ++ x).take k).zip (m ++ y) = (l.take k).zip m := by
  rw [List.take_append_of_le_length hk]
  induction l generalizing m k with
  | nil => simp
  | cons a l ih =>
    cases m with
    | nil => simp at h
    | cons b m =>
      cases k with
      | zero => simp
      | succ k => simp only [List.take_succ_cons, List.cons_append, List.zip_cons_cons]; rw [ih m (by simpa using h) k (by simpa using hk)]

theorem group_ok {mo : Mode} (hvv : mo.varVoices = false) (t : Track) (hg : t.group = []) (v : VarsTame mo t) :
    ∀ (r : List (Int × List Upd)), let segs := r.reverse
    (∀ x ∈ segs, TameL mo false x.2) → ∀ t', Track.list (playVoices segs) t = some t' →
    ∃ stops, GroupOk segs t stops ∧ VarsTame mo t' ∧
      ((segs = [] ∧ t' = t) ∨ (∃ c, InGroup t' (attributes t.cell) (reached ((segs.map (·.1)).zip stops)) c)) := by
  intro r
  induction r with
  | nil =>
    intro segs _ t' h
    have : t' = t := by
      have h : Track.list [] t = some t' := h
      simp only [Track.list, Track.listWith, Option.some.injEq] at h; exact h.symm
    subst this
    exact ⟨[], ⟨rfl, by simp [segs], by simp [segs]⟩, v, Or.inl ⟨rfl, rfl⟩⟩
  | cons x r ih =>
    obtain ⟨n, es⟩ := x
    intro segs hm t' h
    have hsegs : segs = r.reverse ++ [(n, es)] := by simp [segs]
    clear_value segs
    subst hsegs
    rw [playVoices_snoc, Track.list_append] at h
    obtain ⟨w, h1, h2⟩ := bind_some_iff h
    rw [Track.list_append] at h1
    obtain ⟨u, h3, h4⟩ := bind_some_iff h1
    obtain ⟨stops, ok, vu, hin⟩ := ih (fun x hx => hm x (List.mem_append_left _ hx)) u h3
    have h4' : Track.voice n u = some w := by
      simp only [Track.list, Track.listWith, Track.updWith] at h4
      obtain ⟨w', h5, h6⟩ := bind_some_iff h4
      simp only [Option.some.injEq] at h6; subst h6; exact h5
    have hvw : VarsTame mo w := by
      have : w.vars = u.vars := by
        unfold Track.voice at h4'
        split at h4'
        · simp only [Option.some.injEq] at h4'; subst h4'; rfl
        · split at h4'
          · simp at h4'
          · simp only [Option.some.injEq] at h4'; subst h4'; rfl
          · simp at h4'
          · simp only [Option.some.injEq] at h4'; subst h4'; rfl
      unfold VarsTame; rw [this]; exact vu
    have q := list_quiet hvv es w t' (hm (n, es) (by simp)) hvw h2
    have hstart : attributes w.cell = ((reached (((r.reverse).map (·.1)).zip stops)).lookup n).getD (attributes t.cell) ∧
        InGroup w (attributes t.cell) (place (reached (((r.reverse).map (·.1)).zip stops)) n (attributes w.cell)) n := by
      rcases hin with ⟨h5, h6⟩ | ⟨c, hc⟩
      · rw [h5]
        subst h6
        obtain ⟨a, b⟩ := first_voice hg n h4'
        refine ⟨a, ?_⟩
        rw [a]; exact b
      · exact hc.voice n h4'
    have hlen : stops.length = r.reverse.length := ok.length
    refine ⟨stops ++ [attributes t'.cell], ⟨by simp [hlen], ?_, ?_⟩, q.vars hvw, Or.inr ⟨n, ?_⟩⟩
    · intro k m fs hk
      by_cases hkl : k < r.reverse.length
      · rw [List.getElem?_append_left hkl] at hk
        obtain ⟨u', a, b⟩ := ok.starts k m fs hk
        refine ⟨u', ?_, ?_⟩
        · rw [List.take_append_of_le_length (by omega)]; exact a
        · rw [b, List.map_take, List.map_take, List.map_append, zip_take _ _ _ _ (by simpa using hlen) k (by simp at hkl ⊢; omega)]
      · have : k = r.reverse.length := by
          have := (List.getElem?_eq_some_iff.1 hk).1; simp at this hkl ⊢; omega
        subst this
        simp only [List.getElem?_append_right (Nat.le_refl _), Nat.sub_self, List.getElem?_cons_zero, Option.some.injEq, Prod.mk.injEq] at hk
        obtain ⟨rfl, rfl⟩ := hk
        refine ⟨w, ?_, ?_⟩
        · rw [List.take_left']
          · rw [Track.list_append, h3, Option.bind_some]; exact h4
          · rfl
        · rw [List.map_take, List.map_append, zip_take _ _ _ _ (by simpa using hlen) _ (by simp), ← List.map_take, List.take_length]
          exact hstart.1
    · intro k m fs hk
      by_cases hkl : k < r.reverse.length
      · rw [List.getElem?_append_left hkl] at hk
        obtain ⟨u', a, b⟩ := ok.stops k m fs hk
        refine ⟨u', ?_, ?_⟩
        · rw [List.take_append_of_le_length (by omega)]; exact a
        · rw [List.getElem?_append_left (by omega)]; exact b
      · have : k = r.reverse.length := by
          have := (List.getElem?_eq_some_iff.1 hk).1; simp at this hkl ⊢; omega
        subst this
        refine ⟨t', ?_, ?_⟩
        · have : (r.reverse ++ [(n, es)]).take (r.reverse.length + 1) = r.reverse ++ [(n, es)] := by
            apply List.take_of_length_le; simp
          rw [this, playVoices_snoc, Track.list_append]; exact h
        · rw [List.getElem?_append_right (by omega), hlen]; simp
    · rw [List.map_append, List.zip_append (by simpa using hlen.symm)]
      simp only [List.map_cons, List.map_nil, List.zip_cons_cons, List.zip_nil_right]
      rw [reached_snoc]
      have := hstart.2.play q.group q.template
      rw [place_place] at this
      exact this

end Alda
