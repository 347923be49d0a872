import Verif.Lemmas.JoinEvent
/-!
The updates of a text as a sequence of small steps: one for each event, voice marker and part declaration. (For C56.)
-/
namespace Alda
namespace Syn
open Spec

theorem concat_cons_inv {c : Node} {cs : List Node} {us : List Upd} (h : concatUpdates (c :: cs) = .ok us) :
    ∃ a b, updatesOf c = .ok a ∧ concatUpdates cs = .ok b ∧ us = a ++ b := by
  simp only [concatUpdates] at h
  cases h1 : updatesOf c with
  | error e => rw [h1] at h; cases h
  | ok a =>
    rw [h1] at h
    cases h2 : concatUpdates cs with
    | error e => rw [h2] at h; cases h
    | ok b => rw [h2] at h; cases h; exact ⟨a, b, rfl, rfl, rfl⟩

theorem concat_cons_ok {c : Node} {cs : List Node} {a b : List Upd} (h1 : updatesOf c = .ok a) (h2 : concatUpdates cs = .ok b) :
    concatUpdates (c :: cs) = .ok (a ++ b) := by
  simp only [concatUpdates, h1, h2]; rfl

theorem concat_nil : concatUpdates [] = .ok [] := by simp only [concatUpdates]

theorem concat_append_ok : ∀ {cs ds : List Node} {a b : List Upd}, concatUpdates cs = .ok a → concatUpdates ds = .ok b → concatUpdates (cs ++ ds) = .ok (a ++ b) := by
  intro cs
  induction cs with
  | nil => intro ds a b h1 h2; rw [concat_nil] at h1; cases h1; exact h2
  | cons c cs ih =>
    intro ds a b h1 h2
    obtain ⟨x, y, hx, hy, rfl⟩ := concat_cons_inv h1
    rw [List.cons_append, List.append_assoc]
    exact concat_cons_ok hx (ih hy h2)

theorem concat_append_inv : ∀ {cs ds : List Node} {us : List Upd}, concatUpdates (cs ++ ds) = .ok us →
    ∃ a b, concatUpdates cs = .ok a ∧ concatUpdates ds = .ok b ∧ us = a ++ b := by
  intro cs
  induction cs with
  | nil => intro ds us h; exact ⟨[], us, concat_nil, h, rfl⟩
  | cons c cs ih =>
    intro ds us h
    rw [List.cons_append] at h
    obtain ⟨x, y, hx, hy, rfl⟩ := concat_cons_inv h
    obtain ⟨a, b, ha, hb, rfl⟩ := ih hy
    exact ⟨x ++ a, b, concat_cons_ok hx ha, hb, by simp⟩

/-- The node of a voice. -/
abbrev voiceNode (k : Int) (es : List Node) : Node := .mk .voice .none [leafNode .voiceNumber (.int k), .mk .eventSequence .none es]

theorem voice_updates {k : Int} {es : List Node} {us : List Upd} (h : concatUpdates es = .ok us) : updatesOf (voiceNode k es) = .ok (.voice k :: us) := by
  simp only [updatesOf, Node.expect, leafNode, Node.type, if_true, innerUpdates, h, Node.lit, Lit.asInt]
  rfl

theorem voice_updates_inv {k : Int} {es : List Node} {us : List Upd} (h : updatesOf (voiceNode k es) = .ok us) : ∃ ws, concatUpdates es = .ok ws ∧ us = .voice k :: ws := by
  cases hc : concatUpdates es with
  | ok ws => rw [voice_updates hc] at h; cases h; exact ⟨ws, rfl, rfl⟩
  | error e =>
    simp only [updatesOf, Node.expect, leafNode, Node.type, if_true, innerUpdates, hc, Node.lit, Lit.asInt] at h
    cases h

theorem end_updates : updatesOf (leafNode .voiceGroupEndMarker) = .ok [.voiceEnd] := by simp only [leafNode, updatesOf]

theorem group_updates (vs : List Node) : updatesOf (.mk .voiceGroup .none vs) = concatUpdates vs := by simp only [updatesOf]

/-- The text does not begin with a voice marker. -/
def NotVoice (T : List Token) : Prop := ∀ t U, T = t :: U → ∀ m, t.tok ≠ .voiceMarker m

/-- The updates of the tokens `T`, read within a voice (`v`) or not. -/
inductive Line : Bool → List Token → List Upd → Prop
  | nil (v : Bool) (t : Token) (h : t.tok = .eof) : Line v [t] []
  | event {v : Bool} {f : Nat} {T R : List Token} {n : Node} {us us' : List Upd} (hi : innerEvent f T = .ok (n, R)) (hv : NotVoice T)
      (hl : looksLikePartDeclaration T = false) (hu : updatesOf n = .ok us) (h : Line v R us') : Line v T (us ++ us')
  | voice {v : Bool} {m : Int} {x : List Char} {p : Pos} {T : List Token} {us : List Upd} (hm : v = true → m ≠ 0) (h : Line true T us) :
      Line v (⟨.voiceMarker m, x, p⟩ :: T) (.voice m :: us)
  | voiceEnd {x : List Char} {p : Pos} {T : List Token} {us : List Upd} (h : Line false T us) : Line true (⟨.voiceMarker 0, x, p⟩ :: T) (.voiceEnd :: us)
  | part {v : Bool} {t : Token} {T R : List Token} {decl : Node} {d : Upd} {us : List Upd} (hl : looksLikePartDeclaration (t :: T) = true)
      (hd : partDeclaration t T = .ok (decl, R)) (hu : declarationOf decl = .ok d) (h : Line false R us) : Line v (t :: T) (d :: us)

theorem innerEvent_head {f : Nat} {T : List Token} {r : Node × List Token} (h : innerEvent f T = .ok r) :
    ∃ t U, T = t :: U ∧ t.tok ≠ .eof ∧ t.tok ≠ .eventSeqClose ∧ t.tok ≠ .cramClose := by
  cases f with
  | zero => simp [innerEvent] at h
  | succ f =>
    cases T with
    | nil => simp [innerEvent] at h
    | cons t U =>
      refine ⟨t, U, rfl, ?_, ?_, ?_⟩ <;>
      · intro ht
        obtain ⟨t, x, p⟩ := t
        simp only at ht
        subst ht
        simp [innerEvent] at h

theorem part_stops {T : List Token} (hl : looksLikePartDeclaration T = true) : EventLoop.stop .part T = .ok (some T) := by
  simp only [EventLoop.stop]
  split
  · rfl
  · rw [if_pos hl]

theorem part_goes_on {t : Token} {T : List Token} (ht : t.tok ≠ .eof) (hl : looksLikePartDeclaration (t :: T) = false) : EventLoop.stop .part (t :: T) = .ok none := by
  simp only [EventLoop.stop]
  split
  · rename_i h; cases h; exact absurd rfl ht
  · rw [if_neg (by rw [hl]; simp)]

theorem part_stop_inv {T R : List Token} (h : EventLoop.stop .part T = .ok (some R)) : R = T ∧ ((∃ t U, T = t :: U ∧ t.tok = .eof) ∨ looksLikePartDeclaration T = true) := by
  simp only [EventLoop.stop] at h
  split at h
  · cases h; exact ⟨rfl, .inl ⟨_, _, rfl, rfl⟩⟩
  · split at h
    · rename_i hl; cases h; exact ⟨rfl, .inr hl⟩
    · cases h

theorem part_none_inv {T : List Token} (h : EventLoop.stop .part T = .ok none) : looksLikePartDeclaration T = false := by
  simp only [EventLoop.stop] at h
  split at h
  · cases h
  · split at h
    · cases h
    · rename_i hl; simpa using hl

theorem looks_name {T : List Token} (h : looksLikePartDeclaration T = true) : ∃ t U, T = t :: U ∧ t.tok = .name := by
  unfold looksLikePartDeclaration at h
  split at h
  · exact ⟨_, _, rfl, rfl⟩
  · cases h

theorem voice_stops {T : List Token} (hl : looksLikePartDeclaration T = true) : EventLoop.stop .voice T = .ok (some T) := by
  obtain ⟨t, U, rfl, ht⟩ := looks_name hl
  obtain ⟨t, x, p⟩ := t
  simp only at ht
  subst ht
  simp only [EventLoop.stop]
  rw [if_pos hl]

theorem voice_goes {f : Nat} {T : List Token} {r : Node × List Token} (hi : innerEvent f T = .ok r) (hv : NotVoice T) (hl : looksLikePartDeclaration T = false) :
    EventLoop.stop .voice T = .ok none := by
  obtain ⟨t, U, rfl, h1, h2, h3⟩ := innerEvent_head hi
  have h4 := hv t U rfl
  obtain ⟨t, x, p⟩ := t
  simp only at h1 h2 h3 h4
  simp only [EventLoop.stop]
  split <;> rename_i h <;> first | (cases h; first | exact absurd rfl h1 | exact absurd rfl (h4 _) | exact absurd rfl h2 | exact absurd rfl h3) | rw [if_neg (by rw [hl]; simp)]

theorem voice_none_inv {T : List Token} (h : EventLoop.stop .voice T = .ok none) : looksLikePartDeclaration T = false := by
  cases hl : looksLikePartDeclaration T with
  | false => rfl
  | true => rw [voice_stops hl] at h; cases h

theorem voice_stop_inv {T R : List Token} (h : EventLoop.stop .voice T = .ok (some R)) : R = T := by
  simp only [EventLoop.stop] at h
  split at h
  any_goals (cases h; rfl)
  split at h
  · cases h; rfl
  · cases h

/-- A voice is left where nothing more belongs to it. -/
theorem voice_leaves : ∀ (f : Nat) {T R : List Token} {ns : List Node}, events f .voice T = .ok (ns, R) → EventLoop.stop .voice R = .ok (some R) := by
  intro f
  induction f with
  | zero => intro T R ns h; simp [events] at h
  | succ f ih =>
    intro T R ns h
    rcases events_cases h with ⟨h1, rfl⟩ | ⟨n, R', m, R1, ms, h1, h2, h3, h4, rfl⟩
    · have := voice_stop_inv h1; subst this; exact h1
    · exact ih h4

/-- Where a voice is left without a voice marker, it makes no difference whether one is in a voice. -/
theorem Line.atStop {R : List Token} {us : List Upd} (h : Line false R us) (hs : EventLoop.stop .voice R = .ok (some R)) (hv : NotVoice R) : Line true R us := by
  cases h with
  | nil _ t ht => exact .nil _ t ht
  | event hi hn hl hu h => rw [voice_goes hi hn hl] at hs; cases hs
  | voice hm h => exact absurd rfl (hv _ _ rfl _)
  | part hl hd hu h => exact .part hl hd hu h

/-! ### The parser takes such steps -/

theorem voice_events_line : ∀ (f : Nat) {T R : List Token} {ns : List Node} {us1 us2 : List Upd}, events f .voice T = .ok (ns, R) → concatUpdates ns = .ok us1 →
    Line true R us2 → Line true T (us1 ++ us2) := by
  intro f
  induction f with
  | zero => intro T R ns us1 us2 h; simp [events] at h
  | succ f ih =>
    intro T R ns us1 us2 h hu hR
    rcases events_cases h with ⟨h1, rfl⟩ | ⟨n, R', m, R1, ms, h1, h2, h3, h4, rfl⟩
    · have := voice_stop_inv h1; subst this
      rw [concat_nil] at hu; cases hu; exact hR
    · simp only [EventLoop.decorate, Prod.mk.injEq] at h3
      obtain ⟨rfl, rfl⟩ := h3
      obtain ⟨a, b, ha, hb, rfl⟩ := concat_cons_inv hu
      rw [List.append_assoc]
      exact .event h2 (voice_goes_on h1) (voice_none_inv h1) ha (ih h4 hb hR)

theorem voices_line : ∀ (f : Nat) {k : Int} {T R : List Token} {vs : List Node} {us1 us2 : List Upd}, voices f k T = .ok (vs, R) → concatUpdates vs = .ok us1 →
    Line false R us2 → ∃ us, us1 = .voice k :: us ∧ Line true T (us ++ us2) := by
  intro f
  induction f with
  | zero => intro k T R vs us1 us2 h; simp [voices] at h
  | succ f ih =>
    intro k T R vs us1 us2 h hu hR
    obtain ⟨es, R1, h1, h2⟩ := voices_cases h
    rcases h2 with ⟨x, p, rfl, rfl⟩ | ⟨m, x, p, U, more, hm, rfl, h3, rfl⟩ | ⟨rfl, h2, rfl⟩
    · obtain ⟨a, b, ha, hb, rfl⟩ := concat_cons_inv hu
      obtain ⟨ws, hw, rfl⟩ := voice_updates_inv ha
      obtain ⟨c, d, hc, hd, rfl⟩ := concat_cons_inv hb
      rw [end_updates] at hc; cases hc
      rw [concat_nil] at hd; cases hd
      refine ⟨ws ++ [.voiceEnd], rfl, ?_⟩
      rw [List.append_assoc]
      exact voice_events_line f h1 hw (.voiceEnd hR)
    · obtain ⟨a, b, ha, hb, rfl⟩ := concat_cons_inv hu
      obtain ⟨ws, hw, rfl⟩ := voice_updates_inv ha
      obtain ⟨us, rfl, hl⟩ := ih h3 hb hR
      refine ⟨ws ++ .voice m :: us, rfl, ?_⟩
      rw [List.append_assoc]
      exact voice_events_line f h1 hw (.voice (fun _ => hm) hl)
    · obtain ⟨a, b, ha, hb, rfl⟩ := concat_cons_inv hu
      obtain ⟨ws, hw, rfl⟩ := voice_updates_inv ha
      rw [concat_nil] at hb; cases hb
      refine ⟨ws, by simp, ?_⟩
      exact voice_events_line f h1 hw (hR.atStop (voice_leaves f h1) h2)

theorem innerEvent_voice {f : Nat} {m : Int} {x : List Char} {p : Pos} {T R : List Token} {n : Node} (h : innerEvent (f + 1) (⟨.voiceMarker m, x, p⟩ :: T) = .ok (n, R)) :
    ∃ vs, voices f m T = .ok (vs, R) ∧ n = .mk .voiceGroup .none vs := by
  simp only [innerEvent] at h
  split at h
  · cases h
  · rename_i vs _ hv; cases h; exact ⟨vs, hv, rfl⟩

theorem part_events_line : ∀ (f : Nat) {T R : List Token} {ns : List Node} {us1 us2 : List Upd}, events f .part T = .ok (ns, R) → concatUpdates ns = .ok us1 →
    Line false R us2 → Line false T (us1 ++ us2) := by
  intro f
  induction f with
  | zero => intro T R ns us1 us2 h; simp [events] at h
  | succ f ih =>
    intro T R ns us1 us2 h hu hR
    rcases events_cases h with ⟨h1, rfl⟩ | ⟨n, R', m, R1, ms, h1, h2, h3, h4, rfl⟩
    · have := (part_stop_inv h1).1; subst this
      rw [concat_nil] at hu; cases hu; exact hR
    · simp only [EventLoop.decorate, Prod.mk.injEq] at h3
      obtain ⟨rfl, rfl⟩ := h3
      obtain ⟨a, b, ha, hb, rfl⟩ := concat_cons_inv hu
      rw [List.append_assoc]
      have hr := ih h4 hb hR
      obtain ⟨t, U, rfl, _⟩ := innerEvent_head h2
      by_cases hv : NotVoice (t :: U)
      · exact .event h2 hv (part_none_inv h1) ha hr
      · obtain ⟨t, x, p⟩ := t
        have : ∃ k, t = .voiceMarker k := by
          cases t with
          | voiceMarker k => exact ⟨k, rfl⟩
          | _ => exact absurd (by intro t U e m; cases e; simp) hv
        obtain ⟨k, rfl⟩ := this
        cases f with
        | zero => simp [innerEvent] at h2
        | succ f =>
          obtain ⟨vs, hvs, rfl⟩ := innerEvent_voice h2
          rw [group_updates] at ha
          obtain ⟨us, rfl, hl⟩ := voices_line f hvs ha hr
          exact .voice (by simp) hl

theorem seq_updates {es : List Node} : innerUpdates (.mk .eventSequence .none es) .eventSequence = concatUpdates es := by simp only [innerUpdates, if_true]

theorem implicit_updates {es : List Node} : updatesOf (.mk .implicitPart .none [.mk .eventSequence .none es]) = concatUpdates es := by
  simp only [updatesOf, seq_updates]

theorem part_updates {decl : Node} {es : List Node} {us : List Upd} (h : updatesOf (.mk .part .none [decl, .mk .eventSequence .none es]) = .ok us) :
    ∃ d ws, declarationOf decl = .ok d ∧ concatUpdates es = .ok ws ∧ us = d :: ws := by
  simp only [updatesOf, seq_updates] at h
  cases h1 : declarationOf decl with
  | error e => rw [h1] at h; cases h
  | ok d =>
    rw [h1] at h
    cases h2 : concatUpdates es with
    | error e => rw [h2] at h; cases h
    | ok ws => rw [h2] at h; cases h; exact ⟨d, ws, rfl, rfl, rfl⟩

theorem part_updates_ok {decl : Node} {es : List Node} {d : Upd} {ws : List Upd} (h1 : declarationOf decl = .ok d) (h2 : concatUpdates es = .ok ws) :
    updatesOf (.mk .part .none [decl, .mk .eventSequence .none es]) = .ok (d :: ws) := by
  simp only [updatesOf, seq_updates, h1, h2]; rfl

theorem partEvents_inv {T R : List Token} {n : Node} (h : partEvents T = .ok (n, R)) : ∃ ns, events (eventFuel T) .part T = .ok (ns, R) ∧ n = .mk .eventSequence .none ns := by
  unfold partEvents at h
  split at h
  · cases h
  · rename_i ns _ he; cases h; exact ⟨ns, he, rfl⟩

/-- What a text means is read off in steps. -/
theorem topLevels_line : ∀ (f : Nat) {T R : List Token} {ns : List Node} {us : List Upd}, Ends T → topLevels f T = .ok (ns, R) → concatUpdates ns = .ok us → Line false T us := by
  intro f
  induction f with
  | zero => intro T R ns us _ h; simp [topLevels] at h
  | succ f ih =>
    intro T R ns us hE h hu
    simp only [topLevels] at h
    split at h
    · cases h
    · rename_i t more
      split at h
      · rename_i ht
        cases h
        rw [concat_nil] at hu; cases hu
        have := hE.eof ht
        subst this
        exact .nil _ t ht
      · rename_i ht
        have hs := topLevel_sound t more hE ht
        cases hl : topLevel (t :: more) with
        | error e => rw [hl] at h; cases h
        | ok r =>
          obtain ⟨node, T1⟩ := r
          rw [hl] at h hs
          obtain ⟨_, _, _, hE1⟩ := hs
          simp only at h
          cases hr : topLevels f T1 with
          | error e => rw [hr] at h; cases h
          | ok r =>
            obtain ⟨nodes, T2⟩ := r
            rw [hr] at h
            cases h
            obtain ⟨a, b, ha, hb, rfl⟩ := concat_cons_inv hu
            have hi := ih hE1 hr hb
            unfold topLevel at hl
            simp only at hl
            split at hl
            · rename_i hlook
              split at hl
              · cases hl
              · rename_i decl T3 hd
                split at hl
                · cases hl
                · rename_i evs T4 hev
                  cases hl
                  obtain ⟨es, hes, rfl⟩ := partEvents_inv hev
                  obtain ⟨d, ws, h1, h2, rfl⟩ := part_updates ha
                  exact .part hlook hd h1 (part_events_line _ hes h2 hi)
            · split at hl
              · cases hl
              · rename_i evs T4 hev
                cases hl
                obtain ⟨es, hes, rfl⟩ := partEvents_inv hev
                rw [implicit_updates] at ha
                exact part_events_line _ hes ha hi

/-! ### Such steps make up a parse -/

/-- The parser reads the tokens as parts with these updates. -/
def Tops (T : List Token) (us : List Upd) : Prop := ∃ f ns R, topLevels f T = .ok (ns, R) ∧ concatUpdates ns = .ok us

/-- … as events of a part, and further parts. -/
def Body (T : List Token) (us : List Upd) : Prop :=
  ∃ f ns R us1 us2, events f .part T = .ok (ns, R) ∧ concatUpdates ns = .ok us1 ∧ us = us1 ++ us2 ∧ Tops R us2

/-- … as voices, and so on. -/
def Voiced (T : List Token) (us : List Upd) : Prop :=
  ∃ f R us1 us2, (∀ k, ∃ vs, voices f k T = .ok (vs, R) ∧ concatUpdates vs = .ok (.voice k :: us1)) ∧ us = us1 ++ us2 ∧ Body R us2

theorem topLevels_succ {f : Nat} {t : Token} {T R W : List Token} {n : Node} {ns : List Node} (ht : t.tok ≠ .eof) (h1 : topLevel (t :: T) = .ok (n, R))
    (h2 : topLevels f R = .ok (ns, W)) : topLevels (f + 1) (t :: T) = .ok (n :: ns, W) := by
  simp only [topLevels, if_neg ht, h1, h2]

theorem partEvents_ok {f : Nat} {T R : List Token} {ns : List Node} (hE : Ends T) (h : events f .part T = .ok (ns, R)) : partEvents T = .ok (.mk .eventSequence .none ns, R) := by
  have hs := (events_sound (eventFuel T) T hE).2.1 (Nat.le_refl _) .part
  have : events (eventFuel T) .part T = .ok (ns, R) := by
    refine events_enough h ?_
    intro hu
    rw [hu] at hs
    exact hs
  unfold partEvents
  rw [this]

theorem Body.tops {T : List Token} {us : List Upd} (hE : Ends T) (h : Body T us) : Tops T us := by
  obtain ⟨f, ns, R, us1, us2, h1, h2, rfl, f2, ms, W, h3, h4⟩ := h
  cases hs : EventLoop.stop .part T with
  | error e => simp only [EventLoop.stop] at hs; cases hs
  | ok o =>
    cases f with
    | zero => simp [events] at h1
    | succ f =>
      cases o with
      | some R' =>
        have := (part_stop_inv hs).1
        subst this
        rw [events_stop hs] at h1
        cases h1
        rw [concat_nil] at h2; cases h2
        exact ⟨f2, ms, W, h3, h4⟩
      | none =>
        have h0 := h1
        rcases events_cases h1 with ⟨h5, _⟩ | ⟨n, R', m, R1, ks, h5, h6, _⟩
        · rw [hs] at h5; cases h5
        obtain ⟨t, U, rfl, ht, _⟩ := innerEvent_head h6
        refine ⟨f2 + 1, .mk .implicitPart .none [.mk .eventSequence .none ns] :: ms, W, topLevels_succ ht ?_ h3, concat_cons_ok (by rw [implicit_updates]; exact h2) h4⟩
        unfold topLevel
        simp only
        rw [if_neg (by rw [part_none_inv hs]; simp), partEvents_ok hE h0]

theorem Voiced.cons {f : Nat} {T R : List Token} {n : Node} {us us' : List Upd} (hi : innerEvent f T = .ok (n, R)) (hv : NotVoice T) (hl : looksLikePartDeclaration T = false)
    (hu : updatesOf n = .ok us) (h : Voiced R us') : Voiced T (us ++ us') := by
  obtain ⟨g, W, us1, us2, h1, rfl, h2⟩ := h
  refine ⟨g + f + 1, W, us ++ us1, us2, ?_, by simp, h2⟩
  intro k
  obtain ⟨vs, h3, h4⟩ := h1 k
  cases g with
  | zero => simp [voices] at h3
  | succ g =>
    obtain ⟨es, R1, h5, h6⟩ := voices_cases h3
    have h7 : events (g + 1 + f) .voice T = .ok (n :: es, R1) := by
      rw [show g + 1 + f = g + f + 1 by omega]
      exact events_step (voice_goes hi hv hl) (innerEvent_mono hi (by omega)) rfl (events_mono h5 (by omega))
    rcases h6 with ⟨x, p, rfl, rfl⟩ | ⟨m, x, p, U, more, hm, rfl, h8, rfl⟩ | ⟨rfl, h8, rfl⟩
    · obtain ⟨a, b, ha, hb, e⟩ := concat_cons_inv h4
      obtain ⟨ws, hw, rfl⟩ := voice_updates_inv ha
      simp only [List.cons_append, List.cons.injEq, true_and] at e
      subst e
      refine ⟨_, voices_zero h7, ?_⟩
      rw [← List.append_assoc]
      exact concat_cons_ok (voice_updates (concat_cons_ok hu hw)) hb
    · obtain ⟨a, b, ha, hb, e⟩ := concat_cons_inv h4
      obtain ⟨ws, hw, rfl⟩ := voice_updates_inv ha
      simp only [List.cons_append, List.cons.injEq, true_and] at e
      subst e
      refine ⟨_, voices_next h7 hm (voices_mono h8 (by omega)), ?_⟩
      rw [← List.append_assoc]
      exact concat_cons_ok (voice_updates (concat_cons_ok hu hw)) hb
    · obtain ⟨a, b, ha, hb, e⟩ := concat_cons_inv h4
      obtain ⟨ws, hw, rfl⟩ := voice_updates_inv ha
      simp only [List.cons_append, List.cons.injEq, true_and] at e
      subst e
      refine ⟨_, voices_last h7 h8, ?_⟩
      rw [← List.append_assoc]
      exact concat_cons_ok (voice_updates (concat_cons_ok hu hw)) hb

theorem Line.complete {v : Bool} {T : List Token} {us : List Upd} (h : Line v T us) : Ends T → (v = false → Body T us) ∧ (v = true → Voiced T us) := by
  induction h with
  | nil v t ht =>
    intro hE
    have hb : Body [t] [] := by
      refine ⟨1, [], [t], [], [], events_stop ?_, concat_nil, rfl, 1, [], [t], ?_, concat_nil⟩
      · obtain ⟨t, x, p⟩ := t; simp only at ht; subst ht; rfl
      · simp only [topLevels, if_pos ht]
    refine ⟨fun _ => hb, fun _ => ?_⟩
    refine ⟨2, [t], [], [], ?_, rfl, hb⟩
    intro k
    refine ⟨[voiceNode k []], voices_last (events_stop ?_) ?_, ?_⟩
    · obtain ⟨t, x, p⟩ := t; simp only at ht; subst ht; rfl
    · intro u us h m hm; cases h; rw [ht] at hm; cases hm
    · exact concat_cons_ok (voice_updates concat_nil) concat_nil
  | @event v f T R n us us' hi hv hl hu h ih =>
    intro hE
    obtain ⟨ts, _, _, _, hE1⟩ := innerEvent_reads hE hi
    obtain ⟨i1, i2⟩ := ih hE1
    refine ⟨fun e => ?_, fun e => (i2 e).cons hi hv hl hu⟩
    obtain ⟨g, ns, W, us1, us2, h1, h2, rfl, h3⟩ := i1 e
    obtain ⟨t, U, rfl, ht, _⟩ := innerEvent_head hi
    refine ⟨f + g + 1, n :: ns, W, us ++ us1, us2, ?_, concat_cons_ok hu h2, by simp, h3⟩
    exact events_step (part_goes_on ht hl) (innerEvent_mono hi (by omega)) rfl (events_mono h1 (by omega))
  | @voice v m x p T us hm h ih =>
    intro hE
    obtain ⟨g, R, us1, us2, h1, rfl, h2⟩ := (ih (hE.tail (by simp))).2 rfl
    refine ⟨fun _ => ?_, fun e => ?_⟩
    · obtain ⟨vs, h3, h4⟩ := h1 m
      obtain ⟨g2, ns, W, us3, us4, h5, h6, rfl, h7⟩ := h2
      refine ⟨g + 1 + g2 + 1, .mk .voiceGroup .none vs :: ns, W, (.voice m :: us1) ++ us3, us4, ?_, concat_cons_ok (by rw [group_updates]; exact h4) h6, by simp, h7⟩
      refine events_step (part_goes_on (by simp) rfl) (R := R) ?_ rfl (events_mono h5 (by omega))
      refine innerEvent_mono (f := g + 1) ?_ (by omega)
      simp only [innerEvent, h3]
    · refine ⟨g + 1 + 1, R, .voice m :: us1, us2, ?_, rfl, h2⟩
      intro k
      obtain ⟨vs, h3, h4⟩ := h1 m
      refine ⟨voiceNode k [] :: vs, ?_, ?_⟩
      · exact voices_next (events_stop rfl) (hm e) (voices_mono h3 (by omega))
      · exact concat_cons_ok (voice_updates concat_nil) h4
  | @voiceEnd x p T us h ih =>
    intro hE
    have h1 := (ih (hE.tail (by simp))).1 rfl
    refine ⟨(fun e => by cases e), fun _ => ?_⟩
    refine ⟨2, T, [.voiceEnd], us, ?_, rfl, h1⟩
    intro k
    exact ⟨_, voices_zero (events_stop rfl), concat_cons_ok (voice_updates concat_nil) (concat_cons_ok end_updates concat_nil)⟩
  | @part v t T R decl d us hl hd hu h ih =>
    intro hE
    have ht : t.tok ≠ .eof := by
      obtain ⟨t', U, e, hn⟩ := looks_name hl
      cases e; rw [hn]; simp
    have hs := partDeclaration_sound t T (hE.tail ht)
    rw [hd] at hs
    obtain ⟨_, _, _, hE1⟩ := hs
    obtain ⟨g, ns, W, us1, us2, h1, h2, rfl, f2, ms, W2, h3, h4⟩ := (ih hE1).1 rfl
    have hb : Body (t :: T) (d :: (us1 ++ us2)) := by
      refine ⟨1, [], t :: T, [], _, events_stop (part_stops hl), concat_nil, rfl, f2 + 1, .mk .part .none [decl, .mk .eventSequence .none ns] :: ms, W2, ?_, ?_⟩
      · refine topLevels_succ ht ?_ h3
        unfold topLevel
        simp only
        rw [if_pos hl, hd]
        simp only
        rw [partEvents_ok hE1 h1]
      · exact concat_cons_ok (part_updates_ok hu h2) h4
    refine ⟨fun _ => hb, fun _ => ?_⟩
    refine ⟨2, t :: T, [], _, ?_, rfl, hb⟩
    intro k
    refine ⟨[voiceNode k []], voices_last (events_stop (voice_stops hl)) ?_, concat_cons_ok (voice_updates concat_nil) concat_nil⟩
    intro u us e m hm
    obtain ⟨t', U, e', hn⟩ := looks_name hl
    cases e'; cases e; rw [hn] at hm; cases hm

/-! ### Fuel -/

theorem topLevels_more : ∀ (f : Nat) (T : List Token), topLevels f T ≠ .error .unreachable → topLevels (f + 1) T = topLevels f T := by
  intro f
  induction f with
  | zero => intro T h; simp [topLevels] at h
  | succ f ih =>
    intro T h
    rw [topLevels.eq_def]
    simp only [topLevels] at h ⊢
    cases T with
    | nil => rfl
    | cons t more =>
      simp only at h ⊢
      split
      · rfl
      · rename_i ht
        rw [if_neg ht] at h
        cases hl : topLevel (t :: more) with
        | error e => rfl
        | ok r =>
          obtain ⟨node, T1⟩ := r
          rw [hl] at h
          simp only at h ⊢
          have : topLevels f T1 ≠ .error .unreachable := by
            intro hu; rw [hu] at h; exact h rfl
          have := ih T1 this
          simp only [topLevels] at this
          rw [this]

theorem topLevels_mono {f f' : Nat} {T : List Token} (h : topLevels f T ≠ .error .unreachable) (hf : f ≤ f') : topLevels f' T = topLevels f T := by
  induction hf with
  | refl => rfl
  | step _ ih => rw [topLevels_more _ _ (by rw [ih]; exact h), ih]

/-- A text that is read in steps is parsed. -/
theorem Line.parsed {T : List Token} {us : List Upd} (h : Line false T us) (hE : Ends T) : ∃ n, parseAST T = .ok n ∧ updatesOf n = .ok us := by
  obtain ⟨f, ns, R, h1, h2⟩ := ((h.complete hE).1 rfl).tops hE
  have hs := (topLevels_sound (T.length + 1) T hE (by omega)).1
  have h3 : topLevels (T.length + 1) T = .ok (ns, R) := by
    rcases Nat.le_total f (T.length + 1) with hf | hf
    · rw [topLevels_mono (by rw [h1]; simp) hf, h1]
    · rw [← topLevels_mono ?_ hf, h1]
      intro hu
      rw [hu] at hs
      exact hs
  refine ⟨.mk .root .none ns, by unfold parseAST; rw [h3], ?_⟩
  simp only [updatesOf]; exact h2

theorem line_of_parse {T : List Token} {n : Node} {us : List Upd} (hE : Ends T) (h : parseAST T = .ok n) (hu : updatesOf n = .ok us) : Line false T us := by
  unfold parseAST at h
  split at h
  · cases h
  · rename_i ns R ht
    cases h
    simp only [updatesOf] at hu
    exact topLevels_line _ hE ht hu

end Syn
end Alda
