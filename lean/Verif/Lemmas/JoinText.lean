import Verif.Lemmas.JoinLine
import Verif.Lemmas.JoinShift
import Verif.Lemmas.JoinUpd
import Verif.Spec.Join
import Verif.Props.Line
/-!
The updates of one text after another. (For C56.)
-/
namespace Alda
namespace Syn
open Spec

theorem bind_inv {ε α β : Type} {x : Except ε α} {f : α → Except ε β} {b : β} (h : (x >>= f) = .ok b) : ∃ a, x = .ok a ∧ f a = .ok b := by
  cases x with
  | error e => cases h
  | ok a => exact ⟨a, rfl, h⟩

/-! ### Barlines in durations -/

theorem validList_append_all (d e : List DurComp) : Dur.validList (d ++ e) = (Dur.validList d && Dur.validList e) := by
  induction d with
  | nil => simp [Dur.validList]
  | cons c d ih => simp only [List.cons_append, Dur.validList, ih, Bool.and_assoc]

theorem validList_bars (k : Nat) : Dur.validList (List.replicate k .barline) = true := by
  induction k with
  | zero => rfl
  | succ k ih => simp only [List.replicate_succ, Dur.validList, DurComp.valid, ih]; rfl

theorem toMsFrom_bars (T : Rat) (k : Nat) : ∀ a, Dur.toMsFrom T a (List.replicate k .barline) = some a := by
  induction k with
  | zero => intro a; rfl
  | succ k ih => intro a; simp only [List.replicate_succ, Dur.toMsFrom, DurComp.toMs, ih]; grind

theorem toMsFrom_append_bars (T : Rat) (k : Nat) (d : List DurComp) : ∀ a, Dur.toMsFrom T a (d ++ List.replicate k .barline) = Dur.toMsFrom T a d := by
  induction d with
  | nil => intro a; rw [List.nil_append, toMsFrom_bars]; rfl
  | cons c d ih =>
    intro a
    simp only [List.cons_append, Dur.toMsFrom]
    cases c.toMs T with
    | none => rfl
    | some x => exact ih _

theorem sameDur_bars {d : Dur} (h : d ≠ []) (k : Nat) : SameDur d (d ++ List.replicate k .barline) := by
  refine ⟨⟨fun e => absurd e h, fun e => absurd (List.append_eq_nil_iff.mp e).1 h⟩, ?_, ?_⟩
  · simp only [Dur.valid, validList_append_all, validList_bars, Bool.and_true]
  · intro T; simp only [Dur.toMs, toMsFrom_append_bars]

theorem durationOf_cons {n : Node} {ns : List Node} {d : Dur} (h : durationOf (n :: ns) = .ok d) : ∃ c e, durationComponent n = .ok c ∧ durationOf ns = .ok e ∧ d = c :: e := by
  simp only [durationOf] at h
  obtain ⟨c, h1, h⟩ := bind_inv h
  obtain ⟨e, h2, h⟩ := bind_inv h
  cases h
  exact ⟨c, e, h1, h2, rfl⟩

theorem durationOf_nodes (k : Nat) : durationOf (barNodes k) = .ok (List.replicate k .barline) := by
  unfold barNodes
  induction k with
  | zero => rfl
  | succ k ih => simp only [List.replicate_succ, durationOf, ih]; rfl

theorem durationOf_more {ds : List Node} {d : Dur} (k : Nat) (h : durationOf ds = .ok d) : durationOf (ds ++ barNodes k) = .ok (d ++ List.replicate k .barline) := by
  induction ds generalizing d with
  | nil => cases h; exact durationOf_nodes k
  | cons n ns ih =>
    obtain ⟨c, e, h1, h2, rfl⟩ := durationOf_cons h
    simp only [List.cons_append, durationOf, h1, ih h2]; rfl

theorem durationOf_ne {ds : List Node} {d : Dur} (hd : ds ≠ []) (h : durationOf ds = .ok d) : d ≠ [] := by
  cases ds with
  | nil => exact absurd rfl hd
  | cons n ns => obtain ⟨c, e, _, _, rfl⟩ := durationOf_cons h; simp

theorem optDuration_mk (ds : List Node) : optDuration (.mk .duration .none ds) = durationOf ds := rfl

/-! ### The update of a longer node -/

theorem longer_updates {n n' : Node} (h : Longer n n') : ∀ {us : List Upd}, updatesOf n = .ok us → ∃ us', updatesOf n' = .ok us' ∧ AkinL us us' := by
  induction h with
  | refl n => intro us h; exact ⟨us, h, .refl us⟩
  | note laa ds k hd =>
    intro us h
    simp only [updatesOf, noteOf, noteRest, Node.type, Node.children] at h ⊢
    obtain ⟨u, k0, k1⟩ := bind_inv h
    obtain ⟨l, h1, k2⟩ := bind_inv k0
    obtain ⟨p, h2, k3⟩ := bind_inv k2
    obtain ⟨⟨d, s⟩, h3, k4⟩ := bind_inv k3
    cases k4
    cases k1
    obtain ⟨d', h4, h5⟩ := bind_inv h3
    cases h5
    refine ⟨[.leaf (.note p (d ++ List.replicate k .barline) false)], ?_, ?_⟩
    · rw [h1, ok_bind, h2, ok_bind, durationOf_more k h4]; rfl
    · simp only [AkinL, Akin]
      exact ⟨_, _, rfl, ⟨_, rfl, .note p false (sameDur_bars (durationOf_ne hd h4) k)⟩, rfl⟩
  | rest ds k hd =>
    intro us h
    simp only [updatesOf, optDuration_mk] at h ⊢
    obtain ⟨d, h1, h⟩ := bind_inv h
    cases h
    refine ⟨[.leaf (.rest (d ++ List.replicate k .barline))], ?_, ?_⟩
    · rw [durationOf_more k h1]; rfl
    · simp only [AkinL, Akin]
      exact ⟨_, _, rfl, ⟨_, rfl, .rest (sameDur_bars (durationOf_ne hd h1) k)⟩, rfl⟩
  | cram es ds k hd =>
    intro us h
    simp only [updatesOf, optDuration_mk] at h ⊢
    obtain ⟨e, h1, h⟩ := bind_inv h
    obtain ⟨d, h2, h⟩ := bind_inv h
    cases h
    refine ⟨[.cram e (d ++ List.replicate k .barline)], ?_, ?_⟩
    · rw [h1, ok_bind, durationOf_more k h2]; rfl
    · simp only [AkinL, Akin]
      exact ⟨_, _, rfl, ⟨e, _, rfl, .refl e, sameDur_bars (durationOf_ne hd h2) k⟩, rfl⟩
  | chord ns hl ih =>
    intro us h
    simp only [updatesOf] at h ⊢
    rw [if_neg (by simp)] at h ⊢
    obtain ⟨e, h1, h⟩ := bind_inv h
    cases h
    obtain ⟨a, b, ha, hb, rfl⟩ := concat_append_inv h1
    obtain ⟨b1, b2, hb1, hb2, rfl⟩ := concat_cons_inv hb
    rw [concat_nil] at hb2; cases hb2
    obtain ⟨us', h3, h4⟩ := ih hb1
    refine ⟨[.chord (a ++ (us' ++ []))], ?_, ?_⟩
    · rw [concat_append_ok ha (concat_cons_ok h3 concat_nil)]; rfl
    · simp only [AkinL, Akin]
      exact ⟨_, _, rfl, ⟨_, rfl, (AkinL.refl a).append (h4.append (.refl []))⟩, rfl⟩
  | varDef name ns hl ih =>
    intro us h
    simp only [updatesOf, seq_updates] at h ⊢
    obtain ⟨nm, h1, h⟩ := bind_inv h
    obtain ⟨x, h2, h⟩ := bind_inv h
    obtain ⟨e, h3, h⟩ := bind_inv h
    cases h
    obtain ⟨a, b, ha, hb, rfl⟩ := concat_append_inv h3
    obtain ⟨b1, b2, hb1, hb2, rfl⟩ := concat_cons_inv hb
    rw [concat_nil] at hb2; cases hb2
    obtain ⟨us', h4, h5⟩ := ih hb1
    refine ⟨[.varDef x (a ++ (us' ++ []))], ?_, ?_⟩
    · rw [h1, ok_bind, h2, ok_bind, concat_append_ok ha (concat_cons_ok h4 concat_nil)]; rfl
    · simp only [AkinL, Akin]
      exact ⟨_, _, rfl, ⟨_, rfl, (AkinL.refl a).append (h5.append (.refl []))⟩, rfl⟩

/-! ### Voices that are left open -/

theorem openAfterAll_append : ∀ (a b : List Upd) (v : Bool), openAfterAll v (a ++ b) = openAfterAll (openAfterAll v a) b := by
  intro a
  induction a with
  | nil => intro b v; simp only [List.nil_append, openAfterAll]
  | cons e a ih => intro b v; simp only [List.cons_append, openAfterAll, ih]

theorem plain_updates {n : Node} {us : List Upd} (hn : plainType n.type = true) (h : updatesOf n = .ok us) : ∃ u, us = [u] ∧ openAfter true u = true := by
  obtain ⟨t, l, cs⟩ := n
  have one : ∀ {α : Type} {x : Except Err α} {f : α → Upd}, (∀ a, openAfter true (f a) = true) → (x >>= fun a => pure [f a]) = .ok us → ∃ u, us = [u] ∧ openAfter true u = true := by
    intro α x f hf h
    obtain ⟨a, _, h2⟩ := bind_inv h
    cases h2
    exact ⟨_, rfl, hf a⟩
  have leaf : ∀ u, Except.ok (ε := Err) [u] = .ok us → openAfter true u = true → ∃ u, us = [u] ∧ openAfter true u = true := by
    intro u h hu; cases h; exact ⟨u, rfl, hu⟩
  simp only [Node.type] at hn
  rw [updatesOf.eq_def] at h
  cases t <;> first | (simp [plainType] at hn; done) | simp only at h
  case atMarker => exact one (fun _ => by simp only [openAfter]) h
  case barline => exact leaf _ h (by simp only [openAfter])
  case chord =>
    split at h
    · cases h
    · exact one (fun _ => by simp only [openAfter]) h
  case cram =>
    split at h
    · exact one (fun _ => by simp only [openAfter]) h
    · obtain ⟨a, _, h2⟩ := bind_inv h
      exact one (fun _ => by simp only [openAfter]) h2
    · cases h
  case eventSequence => exact one (fun _ => by simp only [openAfter]) h
  case lispList => exact one (fun _ => by simp only [openAfter]) h
  case marker => exact one (fun _ => by simp only [openAfter]) h
  case note =>
    obtain ⟨u, h1, h2⟩ := bind_inv h
    cases h2
    refine ⟨u, rfl, ?_⟩
    unfold noteOf at h1
    split at h1
    · cases h1
    · obtain ⟨_, _, h2⟩ := bind_inv h1
      obtain ⟨_, _, h3⟩ := bind_inv h2
      obtain ⟨_, _, h4⟩ := bind_inv h3
      cases h4
      simp only [openAfter]
  case octaveDown => exact leaf _ h (by simp only [openAfter])
  case octaveSet => exact one (fun _ => by simp only [openAfter]) h
  case octaveUp => exact leaf _ h (by simp only [openAfter])
  case «repeat» =>
    split at h
    · obtain ⟨a, _, h2⟩ := bind_inv h
      obtain ⟨b, _, h3⟩ := bind_inv h2
      exact one (fun _ => by simp only [openAfter]) h3
    · cases h
  case rest =>
    split at h
    · exact leaf _ h (by simp only [openAfter])
    · exact one (fun _ => by simp only [openAfter]) h
    · cases h
  case variableDefinition =>
    split at h
    · obtain ⟨a, _, h2⟩ := bind_inv h
      obtain ⟨b, _, h3⟩ := bind_inv h2
      exact one (fun _ => by simp only [openAfter, Bool.true_or]) h3
    · cases h
  case variableReference => exact one (fun _ => by simp only [openAfter]) h

theorem concat_plain : ∀ {es : List Node} {us : List Upd}, (∀ e ∈ es, plainType e.type = true) → concatUpdates es = .ok us → openAfterAll true us = true := by
  intro es
  induction es with
  | nil => intro us _ h; rw [concat_nil] at h; cases h; rfl
  | cons e es ih =>
    intro us hp h
    obtain ⟨a, b, ha, hb, rfl⟩ := concat_cons_inv h
    obtain ⟨u, rfl, hu⟩ := plain_updates (hp e (by simp)) ha
    rw [openAfterAll_append]
    simp only [openAfterAll, hu]
    exact ih (fun x hx => hp x (by simp [hx])) hb

theorem openVoice_updates {n : Node} {us : List Upd} (h : OpenVoice n) (hu : updatesOf n = .ok us) (v : Bool) : openAfterAll v us = true := by
  obtain ⟨k, es, rfl, hp⟩ := h
  obtain ⟨ws, hw, rfl⟩ := voice_updates_inv hu
  simp only [openAfterAll, openAfter]
  exact concat_plain hp hw

theorem open_updates {n : Node} (h : Open n) : ∀ {us : List Upd}, updatesOf n = .ok us → ∀ v, openAfterAll v us = true := by
  induction h with
  | voice ns hv =>
    intro us h v
    rw [group_updates] at h
    obtain ⟨a, b, ha, hb, rfl⟩ := concat_append_inv h
    obtain ⟨b1, b2, hb1, hb2, rfl⟩ := concat_cons_inv hb
    rw [concat_nil] at hb2; cases hb2
    rw [openAfterAll_append, List.append_nil]
    exact openVoice_updates hv hb1 _
  | varDef name ns hl ih =>
    intro us h v
    simp only [updatesOf, seq_updates] at h
    obtain ⟨nm, h1, h⟩ := bind_inv h
    obtain ⟨x, h2, h⟩ := bind_inv h
    obtain ⟨e, h3, h⟩ := bind_inv h
    cases h
    obtain ⟨a, b, ha, hb, rfl⟩ := concat_append_inv h3
    obtain ⟨b1, b2, hb1, hb2, rfl⟩ := concat_cons_inv hb
    rw [concat_nil] at hb2; cases hb2
    simp only [openAfterAll, openAfter]
    rw [openAfterAll_append, List.append_nil, ih hb1]
    cases v <;> rfl

/-- An event that is no voice group and leaves a voice open is a variable definition. -/
theorem open_plain {n : Node} {us : List Upd} (h : Open n) (hp : plainType n.type = true) (hu : updatesOf n = .ok us) : ∃ x es, us = [.varDef x es] ∧ openAfterAll false es = true := by
  have hall := open_updates h hu
  cases h with
  | voice ns hv => simp [plainType, Node.type] at hp
  | varDef name ns hl =>
    simp only [updatesOf, seq_updates] at hu
    obtain ⟨nm, h1, hu⟩ := bind_inv hu
    obtain ⟨x, h2, hu⟩ := bind_inv hu
    obtain ⟨e, h3, hu⟩ := bind_inv hu
    cases hu
    have := hall false
    simp only [openAfterAll, openAfter, Bool.false_or] at this
    exact ⟨x, e, rfl, this⟩

/-! ### Lines one after another -/

theorem Line.bar {v : Bool} {b : Token} {U : List Token} {us : List Upd} (hb : b.tok = .barline) (h : Line v (b :: U) us) : ∃ us', us = .barline :: us' ∧ Line v U us' := by
  obtain ⟨t, x, p⟩ := b
  simp only at hb
  subst hb
  generalize hT : (⟨.barline, x, p⟩ :: U : List Token) = T at h
  cases h with
  | nil _ t ht => cases hT; cases ht
  | @event _ f _ R n us us' hi hv hl hu h =>
    subst hT
    cases f with
    | zero => simp [innerEvent] at hi
    | succ f =>
      simp only [innerEvent, Except.ok.injEq, Prod.mk.injEq] at hi
      obtain ⟨rfl, rfl⟩ := hi
      simp only [leafNode, updatesOf, Except.ok.injEq] at hu
      subst hu
      exact ⟨us', rfl, h⟩
  | voice hm h => cases hT
  | voiceEnd h => cases hT
  | part hl hd hu h =>
    obtain ⟨t', T', e, hn⟩ := looks_name hl
    rw [e] at hT
    cases hT
    cases hn

theorem Line.bars {v : Bool} : ∀ (bs : List Token) {B : List Token} {us : List Upd}, (∀ b ∈ bs, b.tok = .barline) → Line v (bs ++ B) us →
    ∃ us', us = List.replicate bs.length .barline ++ us' ∧ Line v B us' := by
  intro bs
  induction bs with
  | nil => intro B us _ h; exact ⟨us, rfl, h⟩
  | cons b bs ih =>
    intro B us hb h
    obtain ⟨us1, rfl, h1⟩ := Line.bar (hb b (by simp)) h
    obtain ⟨us2, rfl, h2⟩ := ih (fun x hx => hb x (by simp [hx])) h1
    exact ⟨us2, rfl, h2⟩

/-- A line without `V0:` of its own means the same within a voice and without. -/
theorem Line.anywhere {w : Bool} {B : List Token} {us : List Upd} (h : Line w B us) : w = false → Upd.voice 0 ∉ us → ∀ v, Line v B us := by
  induction h with
  | nil _ t ht => intro _ _ v; exact .nil v t ht
  | event hi hv hl hu h ih => intro hw hz v; exact .event hi hv hl hu (ih hw (fun hm => hz (by simp [hm])) v)
  | @voice _ m _ _ _ _ hm h ih =>
    intro _ hz v
    refine .voice (fun _ hm => hz ?_) h
    subst hm; simp
  | voiceEnd h ih => intro hw; cases hw
  | part hl hd hu h ih => intro _ _ v; exact .part hl hd hu h

variable {E B : List Token}

theorem partNames_other {t : Token} (ht : t.tok ≠ .separator) (T : List Token) : partNames (t :: T) = .ok ([], t :: T) := by
  obtain ⟨t, x, p⟩ := t
  cases t <;> first | exact absurd rfl ht | simp only [partNames]

theorem partNames_bad {x : List Char} {p : Pos} {t : Token} (ht : t.tok ≠ .name) (T : List Token) : ∃ e, partNames (⟨.separator, x, p⟩ :: t :: T) = .error e := by
  obtain ⟨t, y, q⟩ := t
  cases t <;> first | exact absurd rfl ht | exact ⟨_, rfl⟩

theorem partNames_ext (hE : AtEnd E) (hB : Cont B) : ∀ (A : List Token) {ns : List Node} {R : List Token}, partNames (A ++ E) = .ok (ns, R) →
    ∃ ts A2, A = ts ++ A2 ∧ R = A2 ++ E ∧ partNames (A ++ B) = .ok (ns, A2 ++ B)
  | [], ns, R, h => by
    obtain ⟨x, p, rfl⟩ := hE
    obtain ⟨t, us, rfl, ht⟩ := hB.head
    rw [List.nil_append, partNames_other (by simp)] at h
    cases h
    refine ⟨[], [], rfl, rfl, ?_⟩
    rw [List.nil_append, partNames_other]
    intro e
    rw [e] at ht
    rcases ht with ht | ht <;> cases ht
  | ⟨t, x, p⟩ :: A, ns, R, h => by
    by_cases ht : t = .separator
    · subst ht
      cases A with
      | nil =>
        obtain ⟨y, q, rfl⟩ := hE
        obtain ⟨e, he⟩ := partNames_bad (x := x) (p := p) (t := ⟨.eof, y, q⟩) (by simp) []
        simp only [List.cons_append, List.nil_append] at h
        rw [he] at h; cases h
      | cons u A =>
        obtain ⟨u, y, q⟩ := u
        by_cases hu : u = .name
        · subst hu
          simp only [List.cons_append, partNames] at h ⊢
          cases h1 : partNames (A ++ E) with
          | error e => rw [h1] at h; cases h
          | ok r =>
            obtain ⟨ms, R'⟩ := r
            rw [h1] at h
            cases h
            obtain ⟨ts, A2, rfl, rfl, h2⟩ := partNames_ext hE hB A h1
            exact ⟨⟨.separator, x, p⟩ :: ⟨.name, y, q⟩ :: ts, A2, rfl, rfl, by rw [h2]⟩
        · obtain ⟨e, he⟩ := partNames_bad (x := x) (p := p) (t := ⟨u, y, q⟩) hu (A ++ E)
          simp only [List.cons_append] at h
          rw [he] at h; cases h
    · simp only [List.cons_append] at h ⊢
      rw [partNames_other ht] at h
      cases h
      exact ⟨[], _, rfl, rfl, by rw [partNames_other ht]; rfl⟩

theorem partDeclaration_ext (hE : AtEnd E) (hB : Cont B) {t : Token} {A R : List Token} {n : Node} (h : partDeclaration t (A ++ E) = .ok (n, R)) :
    ∃ ts A2, A = ts ++ A2 ∧ R = A2 ++ E ∧ partDeclaration t (A ++ B) = .ok (n, A2 ++ B) := by
  unfold partDeclaration at h ⊢
  split at h
  · cases h
  · rename_i names T h1
    obtain ⟨ts, A2, rfl, rfl, h2⟩ := partNames_ext hE hB A h1
    rw [h2]
    simp only at h ⊢
    cases A2 with
    | nil => obtain ⟨x, p, rfl⟩ := hE; simp [matchAlias] at h
    | cons u A2 =>
      obtain ⟨u, x, p⟩ := u
      cases u <;> simp only [List.cons_append, matchAlias] at h ⊢ <;> first | (cases h; done) | skip
      · rename_i a
        cases A2 with
        | nil => obtain ⟨x, p, rfl⟩ := hE; cases h
        | cons w A2 =>
          obtain ⟨w, y, q⟩ := w
          cases w <;> first | (cases h; done) | skip
          cases h
          exact ⟨ts ++ [⟨.alias a, x, p⟩, ⟨.colon, y, q⟩], A2, by simp, rfl, rfl⟩
      · cases h
        exact ⟨ts ++ [⟨.colon, x, p⟩], A2, by simp, rfl, rfl⟩

theorem partNames_sh (k : Nat) : ∀ (T : List Token) {ns : List Node} {R : List Token}, partNames T = .ok (ns, R) → partNames (T.map (sh k)) = .ok (ns, R.map (sh k))
  | [], ns, R, h => by simp only [partNames] at h; cases h; rfl
  | ⟨t, x, p⟩ :: A, ns, R, h => by
    by_cases ht : t = .separator
    · subst ht
      cases A with
      | nil => simp only [partNames] at h; cases h
      | cons u A =>
        obtain ⟨u, y, q⟩ := u
        by_cases hu : u = .name
        · subst hu
          simp only [partNames, List.map_cons, sh_mk] at h ⊢
          cases h1 : partNames A with
          | error e => rw [h1] at h; cases h
          | ok r =>
            obtain ⟨ms, R'⟩ := r
            rw [h1] at h
            cases h
            rw [partNames_sh k A h1]
        · obtain ⟨e, he⟩ := partNames_bad (x := x) (p := p) (t := ⟨u, y, q⟩) hu A
          rw [he] at h; cases h
    · rw [partNames_other ht] at h
      cases h
      rw [List.map_cons, partNames_other ht]

theorem partDeclaration_sh (k : Nat) {t : Token} {T R : List Token} {n : Node} (h : partDeclaration t T = .ok (n, R)) :
    partDeclaration (sh k t) (T.map (sh k)) = .ok (n, R.map (sh k)) := by
  unfold partDeclaration at h ⊢
  split at h
  · cases h
  · rename_i names U h1
    rw [partNames_sh k T h1]
    simp only at h ⊢
    cases U with
    | nil => simp [matchAlias] at h
    | cons u A2 =>
      obtain ⟨u, x, p⟩ := u
      cases u <;> simp only [matchAlias, List.map_cons, sh_mk] at h ⊢ <;> first | (cases h; done) | skip
      · cases A2 with
        | nil => cases h
        | cons w A2 =>
          obtain ⟨w, y, q⟩ := w
          cases w <;> first | (cases h; done) | skip
          cases h
          rfl
      · cases h
        rfl

/-- A text means the same some lines further down. -/
theorem Line.down (k : Nat) {v : Bool} {T : List Token} {us : List Upd} (h : Line v T us) : Line v (T.map (sh k)) us := by
  induction h with
  | nil v t ht => exact .nil v _ ht
  | @event v f T R n us us' hi hv hl hu h ih =>
    refine .event (((parser_sh k f T).1 n R) hi) ?_ (by rw [looksLike_sh]; exact hl) hu ih
    intro u U e m
    obtain ⟨w, ws, rfl, hw⟩ := map_head k e
    rw [hw]
    exact hv w ws rfl m
  | voice hm h ih => exact .voice hm ih
  | voiceEnd h ih => exact .voiceEnd ih
  | @part v t T R decl d us hl hd hu h ih =>
    rw [List.map_cons]
    refine .part ?_ (partDeclaration_sh k hd) hu ih
    have := looksLike_sh k (t :: T)
    rw [List.map_cons] at this
    rw [this]; exact hl

/-- No variable definition among the updates leaves a voice open. -/
def Closed (us : List Upd) : Prop := ∀ x es, Upd.varDef x es ∈ us → openAfterAll false es = false

/-- One text after another: the updates are those of the first and those of the second, except that barlines at the beginning of the second may become part of a duration
at the end of the first. -/
theorem Line.join (hE : AtEnd E) (hB : Cont B) {usB : List Upd} (hL : ∀ v, Line v B usB) {v : Bool} {T : List Token} {usA : List Upd} (h : Line v T usA) :
    ∀ {A : List Token}, T = A ++ E → Ends T → (∀ t ∈ A, ∀ u ∈ B, t.pos.line < u.pos.line) → Closed usA →
    ∃ usA' i usB', AkinL usA usA' ∧ usB = List.replicate i .barline ++ usB' ∧ Line v (A ++ B) (usA' ++ usB') := by
  induction h with
  | nil v t ht =>
    intro A hT _ _ _
    cases A with
    | nil => exact ⟨[], 0, usB, .refl [], rfl, hL v⟩
    | cons a A =>
      obtain ⟨x, p, rfl⟩ := hE
      simp only [List.cons_append, List.cons.injEq] at hT
      have := hT.2
      cases A <;> cases this
  | @event v f T R n us us' hi hv hl hu h ih =>
    intro A hT hEnds hlines hc
    subst hT
    obtain ⟨A2, rfl, hlen, h1, h2⟩ := (parser_ext hE hB f).1 A R n hEnds hi
    obtain ⟨ts, e1, _, _, hE2⟩ := innerEvent_reads hEnds hi
    rw [← List.append_assoc] at e1
    have e2 := List.append_cancel_right e1
    have hA : ∃ a A', A = a :: A' := by
      cases A with
      | nil => simp at hlen
      | cons a A' => exact ⟨a, A', rfl⟩
    have hv' : NotVoice (A ++ B) := by
      obtain ⟨a, A', rfl⟩ := hA
      intro t U e m
      cases e
      exact hv _ _ rfl m
    have hl' : looksLikePartDeclaration (A ++ B) = false := by
      obtain ⟨a, A', rfl⟩ := hA
      rw [looksLike_ext hE hB]
      exact hl
    by_cases hA2 : A2 = []
    · subst hA2
      have hno : us' = [] := by
        obtain ⟨x, p, rfl⟩ := hE
        cases h with
        | nil _ _ _ => rfl
        | event hi _ _ _ _ => obtain ⟨t, U, e, ht, _⟩ := innerEvent_head hi; cases e; exact absurd rfl ht
        | part hl _ _ _ => obtain ⟨t, U, e, ht⟩ := looks_name hl; cases e; cases ht
      subst hno
      have hopen : ¬ Open n := by
        intro ho
        obtain ⟨x, es, rfl, hes⟩ := open_plain ho (innerEvent_plain hi hv) hu
        rw [hc x es (by simp)] at hes
        cases hes
      obtain ⟨n', B', h3, ⟨bs, rfl, hbs⟩, h5⟩ := h2 rfl hopen hlines
      obtain ⟨us1, hu1, hak⟩ := longer_updates h5 hu
      obtain ⟨usB', rfl, hB'⟩ := Line.bars bs hbs (hL v)
      refine ⟨us1, bs.length, usB', by rw [List.append_nil]; exact hak, rfl, ?_⟩
      exact .event (h3 f (Nat.le_refl _)) hv' hl' hu1 hB'
    · obtain ⟨usA', i, usB', k1, k2, k3⟩ := ih rfl hE2 (fun t ht => hlines t (by rw [e2]; simp [ht])) (fun x es hm => hc x es (by simp [hm]))
      refine ⟨us ++ usA', i, usB', (AkinL.refl us).append k1, k2, ?_⟩
      rw [List.append_assoc]
      exact .event (h1 hA2 f (Nat.le_refl _)) hv' hl' hu k3
  | @voice v m x p T us hm h ih =>
    intro A hT hEnds hlines hc
    cases A with
    | nil => obtain ⟨x, p, rfl⟩ := hE; cases hT
    | cons a A =>
      cases hT
      obtain ⟨usA', i, usB', k1, k2, k3⟩ := ih rfl (hEnds.tail (by simp)) (fun t ht => hlines t (by simp [ht])) (fun x es hm => hc x es (by simp [hm]))
      exact ⟨.voice m :: usA', i, usB', by simp only [AkinL, Akin]; exact ⟨_, _, rfl, rfl, k1⟩, k2, .voice hm k3⟩
  | @voiceEnd x p T us h ih =>
    intro A hT hEnds hlines hc
    cases A with
    | nil => obtain ⟨x, p, rfl⟩ := hE; cases hT
    | cons a A =>
      cases hT
      obtain ⟨usA', i, usB', k1, k2, k3⟩ := ih rfl (hEnds.tail (by simp)) (fun t ht => hlines t (by simp [ht])) (fun x es hm => hc x es (by simp [hm]))
      exact ⟨.voiceEnd :: usA', i, usB', by simp only [AkinL, Akin]; exact ⟨_, _, rfl, rfl, k1⟩, k2, .voiceEnd k3⟩
  | @part v t T R decl d us hl hd hu h ih =>
    intro A hT hEnds hlines hc
    cases A with
    | nil => obtain ⟨x, p, rfl⟩ := hE; obtain ⟨t', U, e, ht⟩ := looks_name hl; cases hT; cases e; cases ht
    | cons a A =>
      cases hT
      obtain ⟨ts, A2, rfl, rfl, h2⟩ := partDeclaration_ext hE hB hd
      have ht : t.tok ≠ .eof := by
        obtain ⟨t', U, e, hn⟩ := looks_name hl
        cases e; rw [hn]; simp
      have hs := partDeclaration_sound t _ (hEnds.tail ht)
      rw [hd] at hs
      obtain ⟨_, _, _, hE1⟩ := hs
      obtain ⟨usA', i, usB', k1, k2, k3⟩ := ih rfl hE1 (fun t ht => hlines t (by simp [ht])) (fun x es hm => hc x es (by simp [hm]))
      refine ⟨d :: usA', i, usB', by simp only [AkinL]; exact ⟨_, _, rfl, .refl d, k1⟩, k2, ?_⟩
      exact .part ((looksLike_ext hE hB t (ts ++ A2)).trans hl) h2 hu k3

theorem Line.cont {B : List Token} {us : List Upd} (h : Line false B us) (hE : Ends B) : Cont B := by
  obtain ⟨f, ns, R, us1, us2, h1, _⟩ := (h.complete hE).1 rfl
  exact ⟨f, _, h1⟩

/-! ### The effect on a score -/

theorem update_bars (i : Nat) (us : List Upd) (s : Score) : update (List.replicate i .barline ++ us) s = update us s := by
  induction i with
  | zero => rfl
  | succ i ih =>
    rw [List.replicate_succ, List.cons_append, show Upd.barline :: (List.replicate i .barline ++ us) = [.barline] ++ (List.replicate i .barline ++ us) from rfl, update_append]
    have : update [.barline] s = .ok s := rfl
    rw [this]
    exact ih

theorem update_joined {usA usA' usB usB' : List Upd} {i : Nat} (h : AkinL usA usA') (hB : usB = List.replicate i .barline ++ usB') {s s' : Score} (hs : Twin s s') :
    TwinO (update (usA ++ usB) s) (update (usA' ++ usB') s') := by
  subst hB
  have : update (usA ++ (List.replicate i .barline ++ usB')) s = update (usA ++ usB') s := by
    rw [update_append, update_append]
    congr 1
    funext t
    exact update_bars i usB' t
  rw [this]
  exact update_twin (h.append (.refl usB')) hs

end Syn
end Alda
