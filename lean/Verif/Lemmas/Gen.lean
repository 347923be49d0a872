import Verif.Parse.Gen
import Verif.Spec.Gen
import Verif.Lemmas.ParseUpdates
import Verif.Model.Update
/-!
The AST generated for score updates stands for the same updates. (For C31.)
-/
namespace Alda
namespace Syn
open Spec

/-! ### Key signatures as strings -/

theorem newNoteLetter_char (l : Letter) : newNoteLetter (letterChar l) = some l := by cases l <;> rfl

theorem accidentalChars_written {as : List Accidental} (h : Accidental.natural ∉ as) :
    accidentalChars (as.map accidentalChar) = .ok as := by
  induction as with
  | nil => rfl
  | cons a as ih =>
    have h2 := ih (fun hm => h (List.mem_cons_of_mem _ hm))
    cases a with
    | natural => exact absurd (List.mem_cons_self ..) h
    | sharp => simp only [List.map_cons, accidentalChar, accidentalChars, if_true, h2]; rfl
    | flat => simp only [List.map_cons, accidentalChar, accidentalChars, h2]; rfl

theorem letterAndAccidentals_entry {ks : KeySig} {l : Letter} {as : List Accidental} (h : ks l = some as) (hne : as ≠ [])
    (hn : Accidental.natural ∉ as) : letterAndAccidentals (keyEntry ks l) = .ok (l, as) := by
  simp only [keyEntry, KeySig.read, h, Option.getD_some]
  cases as with
  | nil => exact absurd rfl hne
  | cons a as =>
    simp only [List.map_cons, letterAndAccidentals, newNoteLetter_char]
    rw [← List.map_cons, accidentalChars_written hn]
    rfl

theorem keyEntry_noSpace (ks : KeySig) (l : Letter) : ∀ c ∈ keyEntry ks l, isSpace c = false := by
  intro c hc
  simp only [keyEntry, List.mem_cons, List.mem_map] at hc
  rcases hc with rfl | ⟨a, _, rfl⟩
  · cases l <;> rfl
  · cases a <;> rfl

theorem fieldsFrom_append (w : List Char) (h : ∀ c ∈ w, isSpace c = false) (cur rest : List Char) :
    fieldsFrom cur (w ++ rest) = fieldsFrom (cur ++ w) rest := by
  induction w generalizing cur with
  | nil => simp
  | cons c w ih =>
    simp only [List.cons_append, fieldsFrom, h c (List.mem_cons_self ..)]
    rw [if_neg (by simp), ih (fun c hc => h c (List.mem_cons_of_mem _ hc))]
    simp

theorem fields_join (ws : List (List Char)) (h : ∀ w ∈ ws, w ≠ [] ∧ ∀ c ∈ w, isSpace c = false) : fields (joinSpace ws) = ws := by
  induction ws with
  | nil => rfl
  | cons w ws ih =>
    obtain ⟨hne, hw⟩ := h w (List.mem_cons_self ..)
    cases ws with
    | nil =>
      have h2 := fieldsFrom_append w hw [] []
      simp only [List.append_nil, List.nil_append] at h2
      simp only [joinSpace, fields, h2, fieldsFrom, if_neg hne]
    | cons w' ws =>
      have h2 := ih (fun w hw => h w (List.mem_cons_of_mem _ hw))
      simp only [joinSpace, fields] at h2 ⊢
      rw [fieldsFrom_append w hw]
      simp only [List.nil_append, fieldsFrom]
      rw [if_pos (by decide), if_neg hne, h2]

theorem keySigFields_entries {ks : KeySig} (hk : ExpressibleKey ks) (ls : List Letter) (h : ∀ l ∈ ls, ks l ≠ none) (acc : KeySig) :
    keySigFields acc (ls.map (keyEntry ks)) = .ok (fun l => if l ∈ ls then ks l else acc l) := by
  induction ls generalizing acc with
  | nil => simp [keySigFields]
  | cons l ls ih =>
    cases hl : ks l with
    | none => exact absurd hl (h l (List.mem_cons_self ..))
    | some as =>
      obtain ⟨hne, hn⟩ := hk l as hl
      simp only [List.map_cons, keySigFields, letterAndAccidentals_entry hl hne hn]
      rw [ih (fun l hl => h l (List.mem_cons_of_mem _ hl))]
      congr 1
      funext l'
      by_cases h1 : l' ∈ ls
      · simp [h1]
      · by_cases h2 : l' = l
        · subst h2; simp [h1, KeySig.set, hl]
        · simp [h1, h2, KeySig.set]

theorem keySig_roundTrip {order : MapOrder} (ho : AnyOrder order) {ks : KeySig} (hk : ExpressibleKey ks) :
    keySigFromString (.str (keyString order ks)) = .ok ks := by
  obtain ⟨_, hm⟩ := ho ks
  simp only [keySigFromString, keyString, String.toList_ofList]
  rw [fields_join, keySigFields_entries hk _ (fun l hl => (hm l).1 hl)]
  · congr 1
    funext l
    by_cases h : ks l = none
    · rw [if_neg (by rw [hm]; simp [h]), h]; rfl
    · rw [if_pos ((hm l).2 h)]
  · intro w hw
    obtain ⟨l, _, rfl⟩ := List.mem_map.1 hw
    exact ⟨by simp [keyEntry], keyEntry_noSpace ks l⟩

/-! ### Attributes as lisp -/

theorem lookupFn_key : lookupFn "key-signature" = some
    ([([.string], attr1 keySigFromString .keySignature), ([.list], attr1 keySigFromList .keySignature)].map (attrSignature .attr)) := by
  rfl

theorem lookupFn_dynamic : ∀ d ∈ dynamicVolumes, lookupFn d.1 = some [attrSignature .attr ([], fun _ => .ok (.dynamic d.1))] := by
  intro d hd
  simp only [dynamicVolumes, List.mem_cons, List.not_mem_nil, or_false] at hd
  rcases hd with rfl | rfl | rfl | rfl | rfl | rfl | rfl | rfl | rfl | rfl | rfl | rfl | rfl | rfl <;> rfl

theorem markings_dynamic {m : String} (h : m ∈ markings) : ∃ v, (m, v) ∈ dynamicVolumes := by
  have h2 : markings = dynamicVolumes.map (·.1) := rfl
  rw [h2, List.mem_map] at h
  obtain ⟨d, hd, rfl⟩ := h
  exact ⟨d.2, hd⟩

theorem markings_not_quote {m : String} (h : m ∈ markings) : m ≠ "quote" := by
  rintro rfl
  exact absurd h (by decide)

theorem lispUpdate_dynamic {m : String} (h : m ∈ markings) : lispUpdate [.sym m] = .ok (some (.attr (.dynamic m))) := by
  obtain ⟨v, hv⟩ := markings_dynamic h
  have h2 := lookupFn_dynamic _ hv
  simp only at h2
  have h3 : evalSym m = .ok (.fn m) := by simp only [evalSym, if_neg (markings_not_quote h), h2]
  simp only [lispUpdate, LispForm.eval, h3, LispForm.evalArgs, h2]
  rfl

theorem lispUpdate_key {order : MapOrder} (ho : AnyOrder order) {ks : KeySig} (hk : ExpressibleKey ks) :
    lispUpdate [.sym "key-signature", .str (keyString order ks)] = .ok (some (.attr (.keySignature ks))) := by
  have h3 : evalSym "key-signature" = .ok (.fn "key-signature") := by
    simp only [evalSym, lookupFn_key]
    rw [if_neg (by decide)]
  simp only [lispUpdate, LispForm.eval, h3, LispForm.evalArgs, lookupFn_key, List.map_cons, List.map_nil, operate, attrSignature]
  simp only [argumentsMatchSignature, List.length_cons, List.length_nil, List.getLast?, fixedArgsMatch, typeOk, LispForm.hasType]
  simp only [attr1, keySig_roundTrip ho hk]
  rfl

/-! ### What the generated AST stands for -/

mutual
/-- The update that the AST generated for an update stands for: dynamic markings and key signatures are lisp expressions. -/
def rewritten (order : MapOrder) : Upd → Upd
  | .leaf (.attr (.dynamic m)) => .lisp [.sym m]
  | .leaf (.attr (.keySignature ks)) => .lisp [.sym "key-signature", .str (keyString order ks)]
  | .chord es => .chord (rewrittenL order es)
  | .cram es d => .cram (rewrittenL order es) d
  | .seq es => .seq (rewrittenL order es)
  | .rep e n => .rep (rewritten order e) n
  | .onReps rs e => .onReps rs (rewritten order e)
  | .varDef n es => .varDef n (rewrittenL order es)
  | .leaf l => .leaf l
  | .lisp fs => .lisp fs
  | .lispNil => .lispNil
  | .barline => .barline
  | .voice n => .voice n
  | .voiceEnd => .voiceEnd
  | .marker n => .marker n
  | .atMarker n => .atMarker n
  | .varRef n => .varRef n
  | .partDecl ns a => .partDecl ns a
def rewrittenL (order : MapOrder) : List Upd → List Upd
  | [] => []
  | u :: us => rewritten order u :: rewrittenL order us
end

theorem rewrittenL_append (order : MapOrder) (us vs : List Upd) :
    rewrittenL order (us ++ vs) = rewrittenL order us ++ rewrittenL order vs := by
  induction us with
  | nil => rfl
  | cons u us ih => simp only [List.cons_append, rewrittenL, ih]

mutual
theorem genForm_ok : ∀ (f : LispForm), ExpressibleForm f → ∃ n, genForm f = .ok n ∧ lispFormOf n = .ok f
  | .list fs, h => by
    obtain ⟨ns, h1, h2⟩ := genForms_ok fs h
    exact ⟨.mk .lispList .none ns, by simp only [genForm, h1]; rfl, by simp only [lispFormOf, h2]; rfl⟩
  | .quoted f, h => by
    obtain ⟨n, h1, h2⟩ := genForm_ok f h
    exact ⟨.mk .lispQuotedForm .none [n], by simp only [genForm, h1]; rfl, by simp only [lispFormOf, h2]; rfl⟩
  | .num q, _ => ⟨_, rfl, rfl⟩
  | .str s, _ => ⟨_, rfl, rfl⟩
  | .sym s, _ => ⟨_, rfl, rfl⟩
  | .quoteForm, h | .fn _, h | .nil, h | .update _, h | .pitch _, h | .dur _, h => h.elim
theorem genForms_ok : ∀ (fs : List LispForm), ExpressibleForms fs → ∃ ns, genForms fs = .ok ns ∧ lispFormsOf ns = .ok fs
  | [], _ => ⟨[], rfl, rfl⟩
  | f :: fs, h => by
    obtain ⟨n, h1, h2⟩ := genForm_ok f h.1
    obtain ⟨ns, h3, h4⟩ := genForms_ok fs h.2
    exact ⟨n :: ns, by simp only [genForms, h1, h3]; rfl, by simp only [lispFormsOf, h2, h4]; rfl⟩
end

theorem genComponent_ok (c : DurComp) (h : ExpressibleDur [c]) : ∃ n, genComponent c = .ok n ∧ durationComponent n = .ok c := by
  have h := h c (List.mem_cons_self ..)
  cases c with
  | barline | ms | seconds => exact ⟨_, rfl, rfl⟩
  | beats | nested => exact h.elim
  | length d dots =>
    refine ⟨_, rfl, ?_⟩
    cases dots with
    | zero => rfl
    | succ k => rw [if_pos (by omega)]; rfl

theorem genComponents_ok (d : Dur) (h : ExpressibleDur d) : ∃ ns, genComponents d = .ok ns ∧ durationOf ns = .ok d := by
  induction d with
  | nil => exact ⟨[], rfl, rfl⟩
  | cons c d ih =>
    obtain ⟨n, h1, h2⟩ := genComponent_ok c (by intro x hx; rw [List.mem_singleton] at hx; subst hx; exact h x (List.mem_cons_self ..))
    obtain ⟨ns, h3, h4⟩ := ih (fun x hx => h x (List.mem_cons_of_mem _ hx))
    exact ⟨n :: ns, by simp only [genComponents, h1, h3]; rfl, by simp only [durationOf, h2, h4]; rfl⟩

theorem genDuration_ok (d : Dur) (h : ExpressibleDur d) : ∃ ns, genDuration d = .ok ns ∧
    (ns = [] ∧ d = [] ∨ ∃ cs, ns = [.mk .duration .none cs] ∧ durationOf cs = .ok d) := by
  cases d with
  | nil => exact ⟨[], rfl, .inl ⟨rfl, rfl⟩⟩
  | cons c d =>
    obtain ⟨ns, h1, h2⟩ := genComponents_ok _ h
    exact ⟨[.mk .duration .none ns], by simp only [genDuration, h1]; rfl, .inr ⟨ns, rfl, h2⟩⟩

theorem accidentalsOf_gen (as : List Accidental) : accidentalsOf (as.map genAccidental) = .ok as := by
  induction as with
  | nil => rfl
  | cons a as ih => cases a <;> (simp only [List.map_cons, accidentalsOf, ih]; rfl)

theorem genPitch_ok (l : Letter) (acc : Option (List Accidental)) (h : acc ≠ some []) :
    ∃ n, genPitch (.letter l acc) = .ok n ∧ n.type = .noteLetterAndAccidentals ∧ pitchOf n = .ok (.letter l acc) := by
  refine ⟨_, rfl, rfl, ?_⟩
  match acc with
  | none => cases l <;> rfl
  | some [] => exact absurd rfl h
  | some (a :: as) =>
    have h2 := accidentalsOf_gen (a :: as)
    show (do
      let c ← Except.ok (letterChar l)
      let letter ← (match newNoteLetter c with | some l => pure l | none => throw (Err.user "invalid note letter"))
      let accs ← accidentalsOf ((a :: as).map genAccidental)
      return Pitch.letter letter (if accs.isEmpty then none else some accs)) = _
    rw [h2]
    simp only [ok_bind, newNoteLetter_char]
    rfl

theorem concat_one {n : Node} {us : List Upd} (h : updatesOf n = .ok us) : concatUpdates [n] = .ok us := by
  simp only [concatUpdates, h]
  show Except.ok (us ++ []) = _
  rw [List.append_nil]

theorem concatUpdates_append {ns ms : List Node} {us vs : List Upd} (h1 : concatUpdates ns = .ok us) (h2 : concatUpdates ms = .ok vs) :
    concatUpdates (ns ++ ms) = .ok (us ++ vs) := by
  induction ns generalizing us with
  | nil => cases h1; exact h2
  | cons n ns ih =>
    simp only [concatUpdates] at h1
    cases hn : updatesOf n with
    | error e => rw [hn] at h1; cases h1
    | ok a =>
      rw [hn] at h1
      cases hns : concatUpdates ns with
      | error e => rw [hns] at h1; cases h1
      | ok b =>
        rw [hns] at h1
        cases h1
        simp only [List.cons_append, concatUpdates, hn, ih hns]
        show Except.ok _ = Except.ok _
        simp only [List.append_assoc]

/-- The updates of the group under construction. -/
inductive GroupUpdates : Option Group → List Upd → Prop where
  | none : GroupUpdates none []
  | some (g : Group) (b e : List Upd) : concatUpdates g.before = .ok b → concatUpdates g.events = .ok e →
    GroupUpdates (some g) (b ++ .voice g.number :: e)

theorem Group.updates {g : Group} {us : List Upd} (h : GroupUpdates (some g) us) : concatUpdates g.nodes = .ok us := by
  cases h with
  | some _ b e h1 h2 =>
    refine concatUpdates_append h1 (concat_one ?_)
    simp only [updatesOf, Node.expect, Node.type, if_true, ok_bind, innerUpdates, h2]
    rfl

theorem closeGroup_updates {g : Option Group} {us : List Upd} (h : GroupUpdates g us) : concatUpdates (closeGroup g) = .ok us := by
  cases g with
  | none => cases h; rfl
  | some g => exact concat_one (Group.updates h)

mutual
theorem genUpd_ok (order : MapOrder) : ∀ (u : Upd), Expressible u →
    ∃ n, genUpd order u = .ok n ∧ updatesOf n = .ok [rewritten order u]
  | .leaf (.note (.letter l acc) d s), h => by
    obtain ⟨laa, h1, h2, h3⟩ := genPitch_ok l acc h.1
    obtain ⟨ns, h4, h5⟩ := genDuration_ok d h.2
    refine ⟨_, by simp only [genUpd, h1, h4, ok_bind]; rfl, ?_⟩
    have h6 : laa.expect .noteLetterAndAccidentals = .ok laa := by simp only [Node.expect, h2, if_true]
    have h7 : noteRest (ns ++ (if s then [.mk .tie .none []] else [])) [] false = .ok (d, s) := by
      have h8 : ∀ d, noteRest (if s then [.mk .tie .none []] else []) d false = .ok (d, s) := by
        intro d; cases s <;> rfl
      rcases h5 with ⟨rfl, rfl⟩ | ⟨cs, rfl, h9⟩
      · exact h8 []
      · simp only [List.cons_append, List.nil_append, noteRest, Node.type, Node.children, h9, ok_bind, h8]
    simp only [updatesOf, List.cons_append, noteOf, h6, ok_bind, h3, h7]
    rfl
  | .leaf (.note (.midi _) _ _), h => h.elim
  | .leaf (.rest d), h => by
    obtain ⟨ns, h4, h5⟩ := genDuration_ok d h
    refine ⟨_, by simp only [genUpd, h4, ok_bind]; rfl, ?_⟩
    rcases h5 with ⟨rfl, rfl⟩ | ⟨cs, rfl, h9⟩
    · rfl
    · simp only [updatesOf, optDuration, Node.expect, Node.type, if_true, ok_bind, Node.children, h9]; rfl
  | .leaf (.attr u), h => by
    cases u with
    | octave | octaveUp | octaveDown | dynamic | keySignature => exact ⟨_, rfl, rfl⟩
    | _ => exact h.elim
  | .leaf (.globalAttr _), h => h.elim
  | .lisp fs, h => by
    obtain ⟨ns, h1, h2⟩ := genForms_ok fs h
    exact ⟨_, by simp only [genUpd, h1, ok_bind]; rfl, by simp only [updatesOf, h2, ok_bind]; rfl⟩
  | .barline, _ => ⟨_, rfl, rfl⟩
  | .marker _, _ => ⟨_, rfl, rfl⟩
  | .atMarker _, _ => ⟨_, rfl, rfl⟩
  | .varRef _, _ => ⟨_, rfl, rfl⟩
  | .chord es, h => by
    obtain ⟨ns, h1, h2⟩ := genInner_ok order es false h.2 [] none [] [] rfl .none rfl
    refine ⟨_, by simp only [genUpd, h1, ok_bind]; rfl, ?_⟩
    have h3 : ns.isEmpty = false := by
      cases ns with
      | cons => rfl
      | nil =>
        cases es with
        | nil => exact absurd rfl h.1
        | cons => cases h2
    simp only [updatesOf, h3, h2, ok_bind]; rfl
  | .cram es d, h => by
    obtain ⟨ns, h1, h2⟩ := genInner_ok order es false h.1 [] none [] [] rfl .none rfl
    obtain ⟨ds, h4, h5⟩ := genDuration_ok d h.2
    refine ⟨_, by simp only [genUpd, h1, h4, ok_bind]; rfl, ?_⟩
    rcases h5 with ⟨rfl, rfl⟩ | ⟨cs, rfl, h9⟩
    · simp only [updatesOf, innerUpdates, if_true, h2, ok_bind]; rfl
    · simp only [updatesOf, innerUpdates, if_true, h2, ok_bind, optDuration, Node.expect, Node.type, Node.children, h9]; rfl
  | .seq es, h => by
    obtain ⟨ns, h1, h2⟩ := genInner_ok order es false h [] none [] [] rfl .none rfl
    exact ⟨_, by simp only [genUpd, h1, ok_bind]; rfl, by simp only [updatesOf, h2, ok_bind]; rfl⟩
  | .varDef n es, h => by
    obtain ⟨ns, h1, h2⟩ := genInner_ok order es false h [] none [] [] rfl .none rfl
    refine ⟨_, by simp only [genUpd, h1, ok_bind]; rfl, ?_⟩
    simp only [updatesOf, Node.expect, Node.type, Node.lit, Lit.asStr, innerUpdates, if_true, h2, ok_bind]; rfl
  | .rep e n, h => by
    obtain ⟨node, h1, h2⟩ := genUpd_ok order e h
    refine ⟨_, by simp only [genUpd, h1, ok_bind]; rfl, ?_⟩
    simp only [updatesOf, Node.expect, Node.type, Node.lit, Lit.asInt, if_true, h2, ok_bind]; rfl
  | .onReps rs e, h => by
    obtain ⟨node, h1, h2⟩ := genUpd_ok order e h.2
    refine ⟨_, by simp only [genUpd, h1, ok_bind]; rfl, ?_⟩
    have h3 : ∀ rs : List (Int × Int), rangesOf (genRanges rs).children = .ok rs := by
      intro rs
      induction rs with
      | nil => rfl
      | cons r rs ih =>
        simp only [genRanges, Node.children, List.map_cons] at ih ⊢
        simp only [rangesOf, Node.children, Node.expect, Node.type, Node.lit, Lit.asInt, if_true, ok_bind, ih]
        rfl
    have h4 : (genRanges rs).children.isEmpty = false := by
      cases rs with
      | nil => exact absurd rfl h.1
      | cons => rfl
    have h5 : (genRanges rs).expect .repetitions = .ok (genRanges rs) := rfl
    simp only [updatesOf, h2, ok_bind, h5, h4, h3]; rfl
  | .lispNil, h | .voice _, h | .voiceEnd, h | .partDecl _ _, h => h.elim
theorem genInner_ok (order : MapOrder) : ∀ (us : List Upd) (b : Bool), ExpressibleL b us → ∀ (dummy : List Node) (g : Option Group)
    (ds gs : List Upd), concatUpdates dummy = .ok ds → GroupUpdates g gs → g.isSome = b →
    ∃ ns, genInner order us dummy g = .ok ns ∧ concatUpdates ns = .ok (ds ++ gs ++ rewrittenL order us)
  | [], b, _, dummy, g, ds, gs, hd, hg, hb => by
    refine ⟨_, by rw [genInner], ?_⟩
    rw [rewrittenL, List.append_nil]
    exact concatUpdates_append hd (closeGroup_updates hg)
  | u :: us, b, h, dummy, g, ds, gs, hd, hg, hb => by
    have hv : (∀ n, u ≠ .voice n) → u ≠ .voiceEnd → Expressible u ∧ ExpressibleL b us →
        ∃ ns, genInner order (u :: us) dummy g = .ok ns ∧ concatUpdates ns = .ok (ds ++ gs ++ rewrittenL order (u :: us)) := by
      intro hu1 hu2 h
      obtain ⟨node, h1, h2⟩ := genUpd_ok order u h.1
      have hstep : genInner order (u :: us) dummy g =
          genInner order us (addNode node (dummy, g)).1 (addNode node (dummy, g)).2 := by
        rw [genInner.eq_5 order dummy g u us hu1 hu2, h1]
        rfl
      cases g with
      | none =>
        cases hg
        obtain ⟨ns, h3, h4⟩ := genInner_ok order us b h.2 (dummy ++ [node]) none _ [] (concatUpdates_append hd (concat_one h2)) .none hb
        refine ⟨ns, by rw [hstep]; exact h3, ?_⟩
        rw [h4]; simp [rewrittenL]
      | some g =>
        cases hg with
        | some _ gb ge hg1 hg2 =>
          have hg3 : GroupUpdates (some { g with events := g.events ++ [node] }) (gb ++ .voice g.number :: (ge ++ [rewritten order u])) :=
            .some _ _ _ hg1 (concatUpdates_append hg2 (concat_one h2))
          obtain ⟨ns, h3, h4⟩ := genInner_ok order us b h.2 dummy _ ds _ hd hg3 hb
          refine ⟨ns, by rw [hstep]; exact h3, ?_⟩
          rw [h4]; simp [rewrittenL]
    cases u with
    | voice n =>
      have hg2 : GroupUpdates (some ⟨groupNodes g, n, []⟩) (gs ++ .voice n :: []) := by
        refine .some _ gs [] ?_ rfl
        cases g with
        | none => cases hg; rfl
        | some g => exact Group.updates hg
      obtain ⟨ns, h1, h2⟩ := genInner_ok order us true h dummy _ ds _ hd hg2 rfl
      refine ⟨ns, by rw [genInner.eq_2]; exact h1, ?_⟩
      rw [h2]; simp [rewrittenL, rewritten]
    | voiceEnd =>
      cases g with
      | none => cases hb; cases h.1
      | some g =>
        have hd2 : concatUpdates (dummy ++ [.mk .voiceGroup .none (g.nodes ++ [.mk .voiceGroupEndMarker .none []])]) =
            .ok (ds ++ (gs ++ [.voiceEnd])) := by
          refine concatUpdates_append hd (concat_one ?_)
          exact concatUpdates_append (Group.updates hg) (concat_one rfl)
        obtain ⟨ns, h1, h2⟩ := genInner_ok order us false h.2 _ none _ [] hd2 .none rfl
        refine ⟨ns, by rw [genInner]; exact h1, ?_⟩
        rw [h2]; simp [rewrittenL, rewritten]
    | _ => exact hv (by simp) (by simp) h
end

/-! ### The top level -/

theorem splitParts_events (us : List Upd) (b : Bool) (h : ExpressibleL b us) (rest : List Upd) :
    splitParts (us ++ rest) = (us ++ (splitParts rest).1, (splitParts rest).2) := by
  induction us generalizing b with
  | nil => rfl
  | cons u us ih =>
    cases u with
    | partDecl names alias => exact h.1.elim
    | voice n => simp only [List.cons_append, splitParts, ih true h]
    | voiceEnd => simp only [List.cons_append, splitParts, ih false h.2]
    | _ => simp only [List.cons_append, splitParts, ih b h.2]

theorem genPart_ok (order : MapOrder) (names : List String) (alias : String) (us : List Upd) (hn : names ≠ []) (h : ExpressibleL false us) :
    ∃ n, genPart order (names, alias, us) = .ok n ∧ updatesOf n = .ok (.partDecl names alias :: rewrittenL order us) := by
  obtain ⟨ns, h1, h2⟩ := genInner_ok order us false h [] none [] [] rfl .none rfl
  refine ⟨_, by simp only [genPart, h1, ok_bind]; rfl, ?_⟩
  have h3 : ∀ names : List String, namesOf (names.map fun n => .mk .partName (.str n) []) = .ok names := by
    intro names
    induction names with
    | nil => rfl
    | cons n ns ih =>
      simp only [List.map_cons, namesOf, Node.expect, Node.type, Node.lit, Lit.asStr, if_true, ok_bind, ih]; rfl
  have h4 : (names.map fun n => Node.mk .partName (.str n) []).isEmpty = false := by
    cases names with
    | nil => exact absurd rfl hn
    | cons => rfl
  have h5 : ∀ ds, declarationOf (.mk .partDeclaration .none (.mk .partNames .none (names.map fun n => .mk .partName (.str n) []) :: ds)) =
      (do
        let alias ← (match ds with
          | [] => pure ""
          | a :: _ => do (← a.expect .partAlias).lit.asStr)
        return .partDecl names alias) := by
    intro ds
    simp only [declarationOf, Node.expect, Node.type, Node.children, if_true, ok_bind, h4, h3]
    rfl
  simp only [updatesOf, h5, innerUpdates, if_true, h2]
  by_cases ha : alias.isEmpty
  · rw [if_pos ha]
    have : alias = "" := String.isEmpty_iff.1 ha
    subst this
    rfl
  · rw [if_neg ha]
    rfl

/-- The updates of the declared parts. -/
def partUpdates (order : MapOrder) : List (List String × String × List Upd) → List Upd
  | [] => []
  | p :: ps => .partDecl p.1 p.2.1 :: rewrittenL order p.2.2 ++ partUpdates order ps

theorem genParts_ok (order : MapOrder) (ps : List (List String × String × List Upd))
    (h : ∀ p ∈ ps, p.1 ≠ [] ∧ ExpressibleL false p.2.2) :
    ∃ ns, genParts order ps = .ok ns ∧ concatUpdates ns = .ok (partUpdates order ps) := by
  induction ps with
  | nil => exact ⟨[], rfl, rfl⟩
  | cons p ps ih =>
    obtain ⟨names, alias, us⟩ := p
    obtain ⟨ns, h1, h2⟩ := ih (fun p hp => h p (List.mem_cons_of_mem _ hp))
    have h3 := h _ (List.mem_cons_self ..)
    obtain ⟨n, h4, h5⟩ := genPart_ok order names alias us h3.1 h3.2
    exact ⟨n :: ns, by simp only [genParts, h1, h4, ok_bind]; rfl, concatUpdates_append (ns := [n]) (concat_one h5) h2⟩

theorem splitParts_written (order : MapOrder) {us : List Upd} (h : ExpressibleScore us) :
    ExpressibleL false (splitParts us).1 ∧ (∀ p ∈ (splitParts us).2, p.1 ≠ [] ∧ ExpressibleL false p.2.2) ∧
    rewrittenL order us = rewrittenL order (splitParts us).1 ++ partUpdates order (splitParts us).2 := by
  induction h with
  | events us h =>
    have h2 := splitParts_events us false h []
    rw [List.append_nil] at h2
    rw [h2]
    simp only [splitParts, List.append_nil]
    exact ⟨h, by simp, by simp [partUpdates]⟩
  | part us names alias rest h hn _ ih =>
    rw [splitParts_events us false h]
    simp only [splitParts, List.append_nil]
    refine ⟨h, ?_, ?_⟩
    · intro p hp
      rcases List.mem_cons.1 hp with rfl | hp
      · exact ⟨hn, ih.1⟩
      · exact ih.2.1 p hp
    · rw [rewrittenL_append, rewrittenL, ih.2.2]
      simp [partUpdates, rewritten]

theorem generate_ok (order : MapOrder) {us : List Upd} (h : ExpressibleScore us) :
    ∃ n, generate order us = .ok n ∧ updatesOf n = .ok (rewrittenL order us) := by
  obtain ⟨h1, h2, h3⟩ := splitParts_written order h
  obtain ⟨ps, h4, h5⟩ := genParts_ok order _ h2
  obtain ⟨ns, h6, h7⟩ := genInner_ok order _ false h1 [] none [] [] rfl .none rfl
  rw [h3]
  by_cases he : (splitParts us).1.isEmpty
  · refine ⟨_, by simp only [generate, h4, ok_bind, if_pos he]; rfl, ?_⟩
    rw [List.isEmpty_iff.1 he]
    exact h5
  · refine ⟨_, by simp only [generate, h4, ok_bind, if_neg he, h6]; rfl, ?_⟩
    refine concatUpdates_append (ns := [_]) (concat_one ?_) h5
    simp only [updatesOf, innerUpdates, if_true]
    exact h7

/-! ### The same effect on every score -/

section
variable {order : MapOrder} (ho : AnyOrder order)
include ho
set_option linter.unusedSectionVars false

mutual
theorem durMs_rewritten (vars : String → Option (List Upd)) (deref : List Upd → Part → Option (Rat × Part)) :
    ∀ u, Expressible u → durMsWith vars deref (rewritten order u) = durMsWith vars deref u
  | .leaf (.attr u), h => by
    cases u with
    | dynamic m => funext p; simp only [rewritten, durMsWith, lispUpdate_dynamic h]
    | keySignature ks => funext p; simp only [rewritten, durMsWith, lispUpdate_key ho h]
    | _ => rfl
  | .leaf (.note _ _ _), _ | .leaf (.rest _), _ | .leaf (.globalAttr _), _ | .lisp _, _ | .lispNil, _ | .barline, _ | .voice _, _
  | .voiceEnd, _ | .marker _, _ | .atMarker _, _ | .varRef _, _ | .partDecl _ _, _ => rfl
  | .chord es, h => by funext p; simp only [rewritten, durMsWith, chordDurMs_rewritten vars deref es false h.2]
  | .cram es d, h => by funext p; simp only [rewritten, durMsWith]
  | .seq es, h => by funext p; simp only [rewritten, durMsWith, listDurMs_rewritten vars deref es false h]
  | .rep e n, h => by funext p; simp only [rewritten, durMsWith, durMs_rewritten vars deref e h]
  | .onReps rs e, h => by funext p; simp only [rewritten, durMsWith, durMs_rewritten vars deref e h.2]
  | .varDef n es, h => by funext p; simp only [rewritten, durMsWith]
theorem listDurMs_rewritten (vars : String → Option (List Upd)) (deref : List Upd → Part → Option (Rat × Part)) :
    ∀ us b, ExpressibleL b us → ∀ acc, listDurMs vars deref acc (rewrittenL order us) = listDurMs vars deref acc us
  | [], _, _, _ => rfl
  | u :: us, b, h, acc => by
    funext p
    have key : durMsWith vars deref (rewritten order u) = durMsWith vars deref u ∧
        ∀ acc, listDurMs vars deref acc (rewrittenL order us) = listDurMs vars deref acc us := by
      cases u with
      | voice n => exact ⟨rfl, listDurMs_rewritten vars deref us true h⟩
      | voiceEnd => exact ⟨rfl, listDurMs_rewritten vars deref us false h.2⟩
      | _ => exact ⟨durMs_rewritten vars deref _ h.1, listDurMs_rewritten vars deref us b h.2⟩
    simp only [rewrittenL, listDurMs, key.1, key.2]
theorem chordDurMs_rewritten (vars : String → Option (List Upd)) (deref : List Upd → Part → Option (Rat × Part)) :
    ∀ us b, ExpressibleL b us → ∀ m, chordDurMs vars deref m (rewrittenL order us) = chordDurMs vars deref m us
  | [], _, _, _ => rfl
  | u :: us, b, h, m => by
    funext p
    have key : durMsWith vars deref (rewritten order u) = durMsWith vars deref u ∧
        ∀ m, chordDurMs vars deref m (rewrittenL order us) = chordDurMs vars deref m us := by
      cases u with
      | voice n => exact ⟨rfl, chordDurMs_rewritten vars deref us true h⟩
      | voiceEnd => exact ⟨rfl, chordDurMs_rewritten vars deref us false h.2⟩
      | _ => exact ⟨durMs_rewritten vars deref _ h.1, chordDurMs_rewritten vars deref us b h.2⟩
    simp only [rewrittenL, chordDurMs, key.1, key.2]
end

mutual
theorem varValue_rewritten (vars : String → Option (List Upd)) :
    ∀ u, Expressible u → varValue vars (rewritten order u) = varValue vars u
  | .leaf (.attr u), h => by
    cases u with
    | dynamic m => simp only [rewritten, varValue, lispUpdate_dynamic h]
    | keySignature ks => simp only [rewritten, varValue, lispUpdate_key ho h]
    | _ => rfl
  | .leaf (.note _ _ _), _ | .leaf (.rest _), _ | .leaf (.globalAttr _), _ | .lisp _, _ | .lispNil, _ | .barline, _ | .voice _, _
  | .voiceEnd, _ | .marker _, _ | .atMarker _, _ | .varRef _, _ | .partDecl _ _, _ => rfl
  | .chord es, h => by simp only [rewritten, varValue, varValues_rewritten vars es false h.2]
  | .cram es d, h => by simp only [rewritten, varValue, varValues_rewritten vars es false h.1]
  | .seq es, h => by simp only [rewritten, varValue, varValues_rewritten vars es false h]
  | .rep e n, h => by simp only [rewritten, varValue, varValue_rewritten vars e h]
  | .onReps rs e, h => by simp only [rewritten, varValue, varValue_rewritten vars e h.2]
  | .varDef n es, h => by simp only [rewritten, varValue, varValues_rewritten vars es false h]
theorem varValues_rewritten (vars : String → Option (List Upd)) :
    ∀ us b, ExpressibleL b us → varValues vars (rewrittenL order us) = varValues vars us
  | [], _, _ => rfl
  | u :: us, b, h => by
    have key : varValue vars (rewritten order u) = varValue vars u ∧
        varValues vars (rewrittenL order us) = varValues vars us := by
      cases u with
      | voice n => exact ⟨rfl, varValues_rewritten vars us true h⟩
      | voiceEnd => exact ⟨rfl, varValues_rewritten vars us false h.2⟩
      | _ => exact ⟨varValue_rewritten vars _ h.1, varValues_rewritten vars us b h.2⟩
    simp only [rewrittenL, varValues, key.1, key.2]
end

omit ho in
theorem specifiedDuration_rewritten (u : Upd) : specifiedDuration (rewritten order u) = specifiedDuration u := by
  cases u with
  | leaf l =>
    cases l with
    | attr u => cases u <;> rfl
    | _ => rfl
  | _ => rfl

theorem cramScalePart_rewritten {es : List Upd} (h : ExpressibleL false es) (vars : String → Option (List Upd)) (d : Dur) :
    cramScalePart vars (rewrittenL order es) d = cramScalePart vars es d := by
  funext id s
  simp only [cramScalePart, cramTimeScale, eventsDurMs, listDurMs_rewritten ho vars (durMs0 vars) es false h]

mutual
theorem upd_rewritten (deref : List Upd → Score → Out) : ∀ u, Expressible u → updWith deref (rewritten order u) = updWith deref u
  | .leaf (.attr u), h => by
    cases u with
    | dynamic m => funext s; simp only [rewritten, updWith, lispUpdate_dynamic h]
    | keySignature ks => funext s; simp only [rewritten, updWith, lispUpdate_key ho h]
    | _ => rfl
  | .leaf (.note _ _ _), _ | .leaf (.rest _), _ | .leaf (.globalAttr _), _ | .lisp _, _ | .lispNil, _ | .barline, _ | .voice _, _
  | .voiceEnd, _ | .marker _, _ | .atMarker _, _ | .varRef _, _ | .partDecl _ _, _ => rfl
  | .chord es, h => by funext s; simp only [rewritten, updWith, chordEvents_rewritten deref es false h.2]
  | .cram es d, h => by
    funext s
    simp only [rewritten, updWith, updList_rewritten deref es false h.1, cramScalePart_rewritten ho h.1]
  | .seq es, h => by funext s; simp only [rewritten, updWith, updList_rewritten deref es false h]
  | .rep e n, h => by funext s; simp only [rewritten, updWith, upd_rewritten deref e h]
  | .onReps rs e, h => by funext s; simp only [rewritten, updWith, upd_rewritten deref e h.2]
  | .varDef n es, h => by funext s; simp only [rewritten, updWith, varDefUpd, varValues_rewritten ho s.vars es false h]
theorem updList_rewritten (deref : List Upd → Score → Out) :
    ∀ us b, ExpressibleL b us → updListWith deref (rewrittenL order us) = updListWith deref us
  | [], _, _ => rfl
  | u :: us, b, h => by
    funext s
    have key : updWith deref (rewritten order u) = updWith deref u ∧
        updListWith deref (rewrittenL order us) = updListWith deref us := by
      cases u with
      | voice n => exact ⟨rfl, updList_rewritten deref us true h⟩
      | voiceEnd => exact ⟨rfl, updList_rewritten deref us false h.2⟩
      | _ => exact ⟨upd_rewritten deref _ h.1, updList_rewritten deref us b h.2⟩
    simp only [rewrittenL, updListWith, key.1, key.2]
theorem chordEvents_rewritten (deref : List Upd → Score → Out) :
    ∀ us b, ExpressibleL b us → chordEvents deref (rewrittenL order us) = chordEvents deref us
  | [], _, _ => rfl
  | u :: us, b, h => by
    funext m s
    have key : updWith deref (rewritten order u) = updWith deref u ∧
        chordEvents deref (rewrittenL order us) = chordEvents deref us := by
      cases u with
      | voice n => exact ⟨rfl, chordEvents_rewritten deref us true h⟩
      | voiceEnd => exact ⟨rfl, chordEvents_rewritten deref us false h.2⟩
      | _ => exact ⟨upd_rewritten deref _ h.1, chordEvents_rewritten deref us b h.2⟩
    simp only [rewrittenL, chordEvents, key.1, key.2, specifiedDuration_rewritten]
end

omit ho in
theorem updListWith_append (deref : List Upd → Score → Out) (us vs : List Upd) (s : Score) :
    updListWith deref (us ++ vs) s = (updListWith deref us s).andThen (updListWith deref vs) := by
  induction us generalizing s with
  | nil => rfl
  | cons u us ih =>
    simp only [List.cons_append, updListWith]
    cases h : updWith deref u s with
    | mk err s2 =>
      cases err with
      | some e => rfl
      | none => exact ih s2

theorem update_rewritten {us : List Upd} (h : ExpressibleScore us) (s : Score) : update (rewrittenL order us) s = update us s := by
  induction h generalizing s with
  | events us h => exact congrFun (updList_rewritten ho _ us false h) s
  | part us names alias rest h hn _ ih =>
    have h1 := updList_rewritten ho derefUpd us false h
    rw [rewrittenL_append]
    simp only [update, rewrittenL, rewritten, updListWith_append, h1, updListWith] at ih ⊢
    congr 1
    funext s2
    congr 1
    funext s3
    exact ih s3
end

mutual
theorem rewritten_literal (order : MapOrder) : ∀ u, NoLispAttributes u → rewritten order u = u
  | .leaf (.attr u), h => by
    cases u with
    | dynamic m => exact h.elim
    | keySignature ks => exact h.elim
    | _ => rfl
  | .leaf (.note _ _ _), _ | .leaf (.rest _), _ | .leaf (.globalAttr _), _ | .lisp _, _ | .lispNil, _ | .barline, _ | .voice _, _
  | .voiceEnd, _ | .marker _, _ | .atMarker _, _ | .varRef _, _ | .partDecl _ _, _ => rfl
  | .chord es, h => by simp only [rewritten, rewrittenL_literal order es h]
  | .cram es d, h => by simp only [rewritten, rewrittenL_literal order es h]
  | .seq es, h => by simp only [rewritten, rewrittenL_literal order es h]
  | .rep e n, h => by simp only [rewritten, rewritten_literal order e h]
  | .onReps rs e, h => by simp only [rewritten, rewritten_literal order e h]
  | .varDef n es, h => by simp only [rewritten, rewrittenL_literal order es h]
theorem rewrittenL_literal (order : MapOrder) : ∀ us, NoLispAttributesL us → rewrittenL order us = us
  | [], _ => rfl
  | u :: us, h => by simp only [rewrittenL, rewritten_literal order u h.1, rewrittenL_literal order us h.2]
end

end Syn
end Alda
