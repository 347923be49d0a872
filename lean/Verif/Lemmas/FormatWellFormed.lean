import Verif.Lemmas.FormatSound
/-!
What the parser makes of the scanner's tokens is a well-formed tree: events within events.
-/
namespace Alda
namespace Syn
open Spec Tree

theorem clean_seq {ns : List Node} (h : Clean (.mk .eventSequence .none ns)) : Apart ns ∧ AllClean ns := by
  simp only [Clean] at h
  exact h.2

/-- Where the loop of a voice is left. -/
theorem voice_left {fuel : Nat} : ∀ {R left : List Token} {ns : List Node}, events fuel .voice R = .ok (ns, left) →
    Closers left ∨ ∃ k u us, left = u :: us ∧ u.tok = .voiceMarker k := by
  induction fuel with
  | zero => intro R left ns h; simp [events] at h
  | succ f ih =>
    intro R left ns h
    simp only [events] at h
    split at h
    · cases h
    · rename_i l hs
      cases h
      simp only [EventLoop.stop] at hs
      repeat' split at hs
      · cases hs; exact .inl (.inl ⟨_, _, rfl, .inl rfl⟩)
      · cases hs; exact .inr ⟨_, _, _, rfl, rfl⟩
      · cases hs; exact .inl (.inl ⟨_, _, rfl, .inr (.inl rfl)⟩)
      · cases hs; exact .inl (.inl ⟨_, _, rfl, .inr (.inr rfl)⟩)
      · rename_i hd; cases hs; exact .inl (.inr hd)
      · cases hs
    · split at h
      · cases h
      · split at h
        · cases h
        · rename_i h2
          cases h
          exact ih h2

/-- A voice, and what comes after it. -/
theorem voice_tree {k : Int} {toks ts mid left : List Token} {ns vs : List Node} {es : List Ev} (h : toks = ts ++ mid) (hS : Scanned toks) (hE : Ends mid)
    (hL : Ends left) (hm : ∃ ms, mid = ms ++ left) (hk : ∃ m : Nat, k = m ∧ m ≤ maxInt)
    (hes : EvsSound .voice toks ns mid es) (fs : List Ev)
    (hfs : vs = nodes fs) (hok : AllClean vs → allOk fs) (hsh : groupShape false fs) (hop : fs ≠ [] → lastOpen es = false)
    (hcl : lastOpen fs = true → Closers left) (hnil : fs = [] → Closers left) (hla : allOneLine fs = false → Later toks left) (hfit : allFit fs) :
    ∃ gs, VoicesSound k toks (.mk .voice .none [leafNode .voiceNumber (.int k), .mk .eventSequence .none ns] :: vs) left gs := by
  obtain ⟨m, rfl, hm'⟩ := hk
  refine ⟨.voice m es :: fs, ⟨by rw [hes.node, hfs]; rfl, by simp, fun hc => ?_, fun first hf => ⟨⟨fun h0 => ?_, hop⟩, hsh⟩, fun ho => ?_, fun ho => ?_, hes.fit.1, hfit⟩⟩
  · simp only [AllClean] at hc
    have h1 := hc.1
    simp only [Clean, AllClean] at h1
    obtain ⟨o1, o2⟩ := hes.ok h1.2.2.2.1.2.1 h1.2.2.2.1.2.2
    exact ⟨⟨hm', o1, o2⟩, hok hc.2⟩
  · have := hf h0
    omega
  · cases fs with
    | nil => exact hnil rfl
    | cons f fs => exact hcl ho
  · simp only [allOneLine, Ev.oneLine, Bool.and_eq_false_iff] at ho
    rcases ho with ho | ho
    · obtain ⟨ms, hm⟩ := hm
      exact later_trans h hm hE hL hS.lined (hes.later ho)
    · exact hla ho

set_option maxHeartbeats 2000000 in
theorem events_tree (fuel : Nat) : ∀ toks, Scanned toks →
    (3 * toks.length ≤ fuel → ∀ n left, innerEvent fuel toks = .ok (n, left) → Bad left ∨ ∃ e, EvSound toks n left e) ∧
    (3 * toks.length + 1 ≤ fuel → ∀ loop ns left, events fuel loop toks = .ok (ns, left) → Bad left ∨ ∃ es, EvsSound loop toks ns left es) ∧
    (3 * toks.length + 2 ≤ fuel → ∀ (k : Int) ns left, (∃ m : Nat, k = m ∧ m ≤ maxInt) → voices fuel k toks = .ok (ns, left) →
      Bad left ∨ ∃ vs, VoicesSound k toks ns left vs) := by
  induction fuel with
  | zero =>
    intro toks _
    refine ⟨fun _ n left h => ?_, fun h => absurd h (by omega), fun h => absurd h (by omega)⟩
    simp [innerEvent] at h
  | succ fuel ih =>
    intro toks hS
    refine ⟨fun hf n left h => ?_, fun hf loop ns left h => ?_, fun hf k ns left hk h => ?_⟩
    · simp only [innerEvent] at h
      split at h
      · -- S-expression
        rename_i text pos toks
        right
        have hS' := hS.tail (by simp)
        have a := lispList_sound toks hS'.ends ⟨.leftParen, text, pos⟩ rfl
        unfold sexp at h
        split at h
        · cases h
        · rename_i list mid hx
          rw [hx] at a
          obtain ⟨ts, a1, a2, a3⟩ := a
          injection h with h
          have hl : Lits (⟨.leftParen, text, pos⟩ :: ts) := by
            have := hS.lits
            rw [a1, ← List.cons_append] at this
            exact this.left
          obtain ⟨fs, f1, f2, f3⟩ := sexpG_tree a2 hl
          have e1 : (⟨.leftParen, text, pos⟩ : Token) :: toks = (⟨.leftParen, text, pos⟩ :: ts) ++ mid := by rw [a1]; rfl
          refine rep_tree (ts := ⟨.leftParen, text, pos⟩ :: ts) (mid := mid) (n := list) (e := .sexp fs) e1 hS a3 ?_ (fun _ => rfl) h
          exact ⟨f1, fun _ => f2, rfl, by simp [Ev.open], fun ho => later_broken e1 hS.lined (f3 ho), by simp, trivial⟩
      · -- definition
        rename_i text pos text' pos' toks
        have hS1 := hS.tail (by simp)
        have hS2 := hS1.tail (by simp)
        split at h
        · cases h
        · rename_i t more
          split at h
          · cases h
          · rename_i hl
            split at h
            · cases h
            · rename_i nodes left' hx
              cases h
              have hN : ∀ u ∈ t :: more, pos.line ≤ u.pos.line := by
                intro u hu
                have := (List.pairwise_cons.1 hS.lined).1 u (by simp at hu ⊢; exact .inr hu)
                simp only at this
                omega
              have hlen : 3 * (t :: more).length + 1 ≤ fuel := by simp at hf ⊢; omega
              have a := (events_sound fuel (t :: more) hS2.ends).2.1 hlen (.varDef pos.line)
              rw [hx] at a
              obtain ⟨ts, a1, _, a3⟩ := a
              have hleft := varDef_left hlen hS2 hN hx
              rcases (ih _ hS2).2.1 hlen _ _ _ hx with hb | ⟨es, hes⟩
              · exact .inl hb
              · right
                have hne : es ≠ [] := by
                  rintro rfl
                  have hnil : nodes = [] := hes.node
                  subst hnil
                  have := events_nil (by simp) (by simp) hx
                  subst this
                  have h1 := hleft t more rfl
                  have h2 : ¬ t.tok = .eof := fun h => hl (.inl h)
                  have h3 : ¬ t.pos.line > pos.line := fun h => hl (.inr h)
                  rcases h1 with h1 | h1
                  · exact h2 h1
                  · exact h3 h1
                have hname : isName (String.ofList text) := isName_text (hS.lits.head (by simp))
                refine ⟨.defn (String.ofList text) es, ⟨by rw [hes.node]; rfl, fun hc => ?_, rfl, fun ho => hes.close (by simp) (by simp) ho, fun _ => ?_, by simp, hes.fit.1, hes.fit.2 _ rfl⟩⟩
                · simp only [Clean, AllClean] at hc
                  obtain ⟨o1, o2⟩ := hes.ok hc.2.2.2.1.2.1 hc.2.2.2.1.2.2
                  exact ⟨hname, hne, o1, o2⟩
                · intro t' ts' u us h1 h2
                  injection h1 with h1 _
                  subst h1
                  exact hleft u us h2
      · -- reference
        rename_i text pos toks _
        right
        injection h with h
        refine rep_tree (ts := [⟨.name, text, pos⟩]) (mid := toks) (e := .ref (String.ofList text)) rfl hS (hS.ends.tail (by simp)) ?_ (fun _ => rfl) h
        exact ⟨rfl, fun _ => isName_text (hS.lits.head (by simp)), rfl, by simp [Ev.open], by simp [Ev.oneLine], by simp, trivial⟩
      · rename_i k text pos toks
        cases h
        right
        obtain ⟨e, h1, h2, h3⟩ := octaveG_tree (.set ⟨.octaveSet k, text, pos⟩ k rfl) (hS.lits.left (ts := [_]))
        rcases h3 with rfl | rfl | ⟨m, rfl⟩
        · cases h1
        · cases h1
        · have : leafNode .octaveSet (.int k) = (Ev.oct m).node := h1
          rw [this]
          exact leaf_tree _ h2 rfl rfl rfl (by simp)
      · cases h; exact .inr (leaf_tree .up trivial rfl rfl rfl (by simp))
      · cases h; exact .inr (leaf_tree .down trivial rfl rfl rfl (by simp))
      · exact .inr (notes_tree hS h)
      · exact .inr (notes_tree hS h)
      · cases h; exact .inr (leaf_tree .bar trivial rfl rfl rfl (by simp))
      · -- sequence
        rename_i text pos toks
        have hS1 := hS.tail (by simp)
        split at h
        · cases h
        · rename_i nodes mid hx
          injection h with h
          have hlen : 3 * toks.length + 1 ≤ fuel := by simp at hf; omega
          have a := (events_sound fuel toks hS1.ends).2.1 hlen .seq
          rw [hx] at a
          obtain ⟨ts, a1, _, a3⟩ := a
          have e1 : (⟨.eventSeqOpen, text, pos⟩ : Token) :: toks = (⟨.eventSeqOpen, text, pos⟩ :: ts) ++ mid := by rw [a1]; rfl
          rcases (ih _ hS1).2.1 hlen _ _ _ hx with hb | ⟨es, hes⟩
          · exact .inl (bad_rep hb h)
          · right
            refine rep_tree (ts := ⟨.eventSeqOpen, text, pos⟩ :: ts) (mid := mid) (e := .seq es) e1 hS a3 ?_ (fun _ => rfl) h
            refine ⟨by rw [hes.node]; rfl, fun hc => hes.ok (clean_seq hc).1 (clean_seq hc).2, rfl, by simp [Ev.open], fun ho => ?_, by simp, hes.fit.1⟩
            exact later_inner (ts := [_]) rfl hS1.ends hS.lined (hes.later ho)
      · -- cram
        rename_i text pos toks
        have hS1 := hS.tail (by simp)
        split at h
        · cases h
        · cases h
        · rename_i nodes mid hne hx
          have hlen : 3 * toks.length + 1 ≤ fuel := by simp at hf; omega
          have a := (events_sound fuel toks hS1.ends).2.1 hlen .cram
          rw [hx] at a
          obtain ⟨ts, a1, _, a3⟩ := a
          rcases (ih _ hS1).2.1 hlen _ _ _ hx with hb | ⟨es, hes⟩
          · rw [bad_duration hb] at h
            injection h with h
            exact .inl (bad_rep hb h)
          · right
            obtain ⟨ds, d1, d2, d3⟩ := optionalDuration_sound mid a3
            obtain ⟨cs, c1, c2⟩ := durationG_tree d2 (by
              have := hS1.lits
              rw [a1, d1] at this
              exact this.right.left)
            have e1 : (⟨.cramOpen, text, pos⟩ : Token) :: toks = (⟨.cramOpen, text, pos⟩ :: ts ++ ds) ++ (optionalDuration mid).2 := by
              conv => lhs; rw [a1, d1]
              simp
            have e2 : (⟨.cramOpen, text, pos⟩ : Token) :: toks = (⟨.cramOpen, text, pos⟩ :: ts) ++ mid := by rw [a1]; rfl
            injection h with h
            refine rep_tree (ts := ⟨.cramOpen, text, pos⟩ :: ts ++ ds) (mid := (optionalDuration mid).2) (e := .cram es cs) e1 hS d3 ?_ (fun _ => rfl) h
            refine ⟨by rw [hes.node, c1]; rfl, fun hc => ?_, rfl, by simp [Ev.open], fun ho => ?_, by simp, hes.fit.1⟩
            · simp only [Clean, AllClean] at hc
              obtain ⟨o1, o2⟩ := hes.ok hc.2.2.1.2.1 hc.2.2.1.2.2
              refine ⟨?_, o1, o2, c2⟩
              rintro rfl
              exact hne (by rw [hes.node]; rfl)
            · refine later_trans e2 d1 a3 d3 hS.lined ?_
              exact later_inner (ts := [_]) rfl hS1.ends hS.lined (hes.later ho)
      · -- voices
        rename_i k text pos toks
        have hS1 := hS.tail (by simp)
        split at h
        · cases h
        · rename_i nodes mid hx
          cases h
          have hk := denotes_voice (t := ⟨.voiceMarker k, text, pos⟩) rfl hS.lits.head
          rcases (ih _ hS1).2.2 (by simp at hf; omega) _ _ _ hk hx with hb | ⟨vs, hv⟩
          · exact .inl hb
          · right
            refine ⟨.group vs, ⟨by rw [hv.node]; rfl, fun hc => ?_, rfl, hv.close, fun ho => ?_, fun _ _ => ⟨k, _, _, rfl, rfl⟩, hv.fit⟩⟩
            · simp only [Clean] at hc
              exact ⟨hv.ne, hv.ok hc.2.2, hv.shape true (by simp)⟩
            · exact later_inner (ts := [_]) rfl hS1.ends hS.lined (hv.later ho)
      · rename_i s text pos toks
        cases h
        right
        have hl := hS.lits.head (by simp)
        simp only at hl
        cases hl with
        | marker _ h1 h2 => exact leaf_tree (.marker s) ⟨h1, h2⟩ rfl rfl rfl (by simp)
      · rename_i s text pos toks
        cases h
        right
        have hl := hS.lits.head (by simp)
        simp only at hl
        cases hl with
        | atMarker _ h1 h2 => exact leaf_tree (.at s) ⟨h1, h2⟩ rfl rfl rfl (by simp)
      · cases h
    · -- loops
      by_cases hbad : Bad left
      · exact .inl hbad
      right
      simp only [events] at h
      split at h
      · cases h
      · cases h
        exact ⟨[], ⟨rfl, fun _ _ => ⟨trivial, trivial⟩, by simp [lastOpen], by simp [allOneLine], trivial, fun _ _ => trivial⟩⟩
      · rename_i hs
        split at h
        · cases h
        · rename_i node l1 hn
          have a := (events_sound fuel toks hS.ends).1 (by omega)
          rw [hn] at a
          obtain ⟨ts, a1, ⟨a2, a3⟩, a4⟩ := a
          rcases hd : loop.decorate node l1 with ⟨m, l2⟩
          rw [hd] at h
          dsimp only at h
          have st := stop_sound loop toks hS.ends
          rw [hs] at st
          obtain ⟨b1, ws, b2, b3, b4⟩ := loop_cons a1 a2 a3 a4 st hd
          split at h
          · cases h
          · rename_i nodes l3 hx
            cases h
            have hlen : 3 * l2.length + 1 ≤ fuel := by
              have : l2.length < toks.length := by
                cases ws with
                | nil => exact absurd rfl b3
                | cons x xs => rw [b2]; simp; omega
              omega
            have c := (events_sound fuel l2 b1).2.1 hlen loop
            rw [hx] at c
            obtain ⟨us, c1, _, c3⟩ := c
            rcases (ih toks hS).1 (by omega) _ _ hn with hb | ⟨e, he⟩
            · rw [bad_decorate hb] at hd
              cases hd
              rw [(bad_loop hb hx).2] at hbad
              exact absurd hb hbad
            · obtain ⟨e', d1, d2, d3, d4, d5, d6⟩ := decorate_tree a1 hS a4 he hs hd
              rcases (ih l2 ((b2 ▸ hS).append b1)).2.1 hlen loop _ _ hx with hb | ⟨es, hes⟩
              · exact absurd hb hbad
              · exact ⟨e' :: es, cons_tree b2 hS b1 c3 ⟨us, c1⟩ d1 d2 d3 d4 d5 d6 hes hx hbad st⟩
    · -- voices
      by_cases hbad : Bad left
      · exact .inl hbad
      right
      simp only [voices] at h
      split at h
      · cases h
      · rename_i nodes mid hx
        have hlen : 3 * toks.length + 1 ≤ fuel := by omega
        have a := (events_sound fuel toks hS.ends).2.1 hlen .voice
        rw [hx] at a
        obtain ⟨ts, a1, _, a3⟩ := a
        have hm := (ih toks hS).2.1 hlen _ _ _ hx
        split at h
        · rename_i m text pos mid'
          have hes := hm.resolve_left (by rintro ⟨u, us, e1, e2⟩; injection e1 with e1 _; rw [← e1] at e2; simp at e2)
          obtain ⟨es, hes⟩ := hes
          have e' := a3.tail (by simp)
          have notOpen : lastOpen es = false := by
            cases ho : lastOpen es with
            | false => rfl
            | true =>
              rcases hes.close (by simp) (by simp) ho with ⟨u, us, e1, e2⟩ | e1
              · injection e1 with e1 _
                rw [← e1] at e2
                simp at e2
              · simp [looksLikePartDeclaration] at e1
          split at h
          · rename_i hm0
            cases h
            exact voice_tree a1 hS a3 e' ⟨[_], rfl⟩ hk hes [.voiceEnd] rfl (fun _ => ⟨trivial, trivial⟩) ⟨⟨rfl, rfl⟩, trivial⟩ (fun _ => notOpen)
              (by simp [lastOpen, Ev.open]) (by simp) (by simp [allOneLine, Ev.oneLine]) ⟨trivial, trivial⟩
          · rename_i hm0
            split at h
            · cases h
            · rename_i more l3 hv
              cases h
              have hS2 := (a1 ▸ hS).append a3
              have hS3 := hS2.tail (by simp)
              have hlen' : 3 * mid'.length + 2 ≤ fuel := by
                have : mid'.length < toks.length := by rw [a1]; simp; omega
                omega
              have c := (events_sound fuel mid' e').2.2 hlen' m ⟨.voiceMarker m, text, pos⟩ rfl
              rw [hv] at c
              obtain ⟨us, c1, _, c3⟩ := c
              have hk' := denotes_voice (t := ⟨.voiceMarker m, text, pos⟩) rfl hS2.lits.head
              rcases (ih mid' hS3).2.2 hlen' _ _ _ hk' hv with hb | ⟨fs, hfs⟩
              · exact absurd hb hbad
              · refine voice_tree a1 hS a3 c3 ⟨⟨.voiceMarker m, text, pos⟩ :: us, by rw [c1]; rfl⟩ hk hes fs hfs.node hfs.ok (hfs.shape false (fun _ => hm0)) (fun _ => notOpen) hfs.close
                  (fun h => absurd h hfs.ne) (fun ho => ?_) hfs.fit
                exact later_inner (ts := ts ++ [⟨.voiceMarker m, text, pos⟩]) (by rw [a1]; simp) e' hS.lined (hfs.later ho)
        · rename_i hnv
          cases h
          obtain ⟨es, hes⟩ := hm.resolve_left hbad
          refine voice_tree a1 hS a3 a3 ⟨[], rfl⟩ hk hes [] rfl (fun _ => trivial) trivial (by simp) (by simp [lastOpen]) (fun _ => ?_) (by simp [allOneLine]) trivial
          rcases voice_left hx with h | ⟨k, u, us, h1, h2⟩
          · exact h
          · obtain ⟨t, x, p⟩ := u
            simp only at h2
            subst h2
            exact absurd h1 (hnv k x p us)

end Syn
end Alda
