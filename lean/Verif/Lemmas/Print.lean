import Verif.Lemmas.FormatProgram
import Verif.Lemmas.Gen
import Verif.Spec.Print
/-!
Score updates as trees of syntax. (For C48.)
-/
namespace Alda
namespace Syn
open Spec Tree

/-! ### Transpositions as lisp -/

mutual
/-- Transpositions written as lisp expressions. -/
def plain : Upd → Upd
  | .leaf (.attr (.transposition n)) => if InInt32 n then .lisp [.sym "transpose", .num n] else .leaf (.attr (.transposition n))
  | .chord es => .chord (plainL es)
  | .cram es d => .cram (plainL es) d
  | .seq es => .seq (plainL es)
  | .rep e n => .rep (plain e) n
  | .onReps rs e => .onReps rs (plain e)
  | .varDef n es => .varDef n (plainL es)
  | .leaf l => .leaf l
  | .lisp fs => .lisp fs
  | .lispNil => .lispNil
  | .barline => .barline
  | .voice n => .voice n
  | .voiceEnd => .voiceEnd
  | .marker n => .marker n
  | .atMarker n => .atMarker n
  | .varRef n => .varRef n
  | .partDecl ns a => .partDecl ns a
def plainL : List Upd → List Upd
  | [] => []
  | u :: us => plain u :: plainL us
end

theorem plainL_append (us vs : List Upd) : plainL (us ++ vs) = plainL us ++ plainL vs := by
  induction us with
  | nil => rfl
  | cons u us ih => simp only [List.cons_append, plainL, ih]

theorem lookupFn_transpose : lookupFn "transpose" = some ([([.number], attr1 integer .transposition)].map (attrSignature .attr)) := by rfl

theorem lispUpdate_transpose {n : Int} (hn : InInt32 n) : lispUpdate [.sym "transpose", .num n] = .ok (some (.attr (.transposition n))) := by
  have h3 : evalSym "transpose" = .ok (.fn "transpose") := by
    simp only [evalSym, lookupFn_transpose]
    rw [if_neg (by decide)]
  simp only [lispUpdate, LispForm.eval, h3, LispForm.evalArgs, lookupFn_transpose, List.map_cons, List.map_nil, operate, attrSignature]
  simp only [argumentsMatchSignature, List.length_cons, List.length_nil, List.getLast?, fixedArgsMatch, typeOk, LispForm.hasType]
  simp [attr1, integer, hn]
  rfl

mutual
theorem durMs_plain (vars : String → Option (List Upd)) (deref : List Upd → Part → Option (Rat × Part)) :
    ∀ u, durMsWith vars deref (plain u) = durMsWith vars deref u
  | .leaf (.attr u) => by
    cases u with
    | transposition n =>
      simp only [plain]
      by_cases hn : InInt32 n
      · rw [if_pos hn]; funext p; simp only [durMsWith, lispUpdate_transpose hn]
      · rw [if_neg hn]
    | _ => rfl
  | .leaf (.note _ _ _) | .leaf (.rest _) | .leaf (.globalAttr _) | .lisp _ | .lispNil | .barline | .voice _
  | .voiceEnd | .marker _ | .atMarker _ | .varRef _ | .partDecl _ _ => rfl
  | .chord es => by funext p; simp only [plain, durMsWith, chordDurMs_plain vars deref es]
  | .cram es d => by funext p; simp only [plain, durMsWith]
  | .seq es => by funext p; simp only [plain, durMsWith, listDurMs_plain vars deref es]
  | .rep e n => by funext p; simp only [plain, durMsWith, durMs_plain vars deref e]
  | .onReps rs e => by funext p; simp only [plain, durMsWith, durMs_plain vars deref e]
  | .varDef n es => by funext p; simp only [plain, durMsWith]
theorem listDurMs_plain (vars : String → Option (List Upd)) (deref : List Upd → Part → Option (Rat × Part)) :
    ∀ us acc, listDurMs vars deref acc (plainL us) = listDurMs vars deref acc us
  | [], _ => rfl
  | u :: us, acc => by
    funext p
    simp only [plainL, listDurMs, durMs_plain vars deref u, listDurMs_plain vars deref us]
theorem chordDurMs_plain (vars : String → Option (List Upd)) (deref : List Upd → Part → Option (Rat × Part)) :
    ∀ us m, chordDurMs vars deref m (plainL us) = chordDurMs vars deref m us
  | [], _ => rfl
  | u :: us, m => by
    funext p
    simp only [plainL, chordDurMs, durMs_plain vars deref u, chordDurMs_plain vars deref us]
end

mutual
theorem varValue_plain (vars : String → Option (List Upd)) : ∀ u, varValue vars (plain u) = varValue vars u
  | .leaf (.attr u) => by
    cases u with
    | transposition n =>
      simp only [plain]
      by_cases hn : InInt32 n
      · rw [if_pos hn]; simp only [varValue, lispUpdate_transpose hn]
      · rw [if_neg hn]
    | _ => rfl
  | .leaf (.note _ _ _) | .leaf (.rest _) | .leaf (.globalAttr _) | .lisp _ | .lispNil | .barline | .voice _
  | .voiceEnd | .marker _ | .atMarker _ | .varRef _ | .partDecl _ _ => rfl
  | .chord es => by simp only [plain, varValue, varValues_plain vars es]
  | .cram es d => by simp only [plain, varValue, varValues_plain vars es]
  | .seq es => by simp only [plain, varValue, varValues_plain vars es]
  | .rep e n => by simp only [plain, varValue, varValue_plain vars e]
  | .onReps rs e => by simp only [plain, varValue, varValue_plain vars e]
  | .varDef n es => by simp only [plain, varValue, varValues_plain vars es]
theorem varValues_plain (vars : String → Option (List Upd)) : ∀ us, varValues vars (plainL us) = varValues vars us
  | [] => rfl
  | u :: us => by simp only [plainL, varValues, varValue_plain vars u, varValues_plain vars us]
end

theorem specifiedDuration_plain (u : Upd) : specifiedDuration (plain u) = specifiedDuration u := by
  cases u with
  | leaf l =>
    cases l with
    | attr u =>
      cases u with
      | transposition n => simp only [plain]; split <;> rfl
      | _ => rfl
    | _ => rfl
  | _ => rfl

theorem cramScalePart_plain (es : List Upd) (vars : String → Option (List Upd)) (d : Dur) :
    cramScalePart vars (plainL es) d = cramScalePart vars es d := by
  funext id s
  simp only [cramScalePart, cramTimeScale, eventsDurMs, listDurMs_plain vars (durMs0 vars) es]

mutual
theorem upd_plain (deref : List Upd → Score → Out) : ∀ u, updWith deref (plain u) = updWith deref u
  | .leaf (.attr u) => by
    cases u with
    | transposition n =>
      simp only [plain]
      by_cases hn : InInt32 n
      · rw [if_pos hn]; funext s; simp only [updWith, lispUpdate_transpose hn]
      · rw [if_neg hn]
    | _ => rfl
  | .leaf (.note _ _ _) | .leaf (.rest _) | .leaf (.globalAttr _) | .lisp _ | .lispNil | .barline | .voice _
  | .voiceEnd | .marker _ | .atMarker _ | .varRef _ | .partDecl _ _ => rfl
  | .chord es => by funext s; simp only [plain, updWith, chordEvents_plain deref es]
  | .cram es d => by funext s; simp only [plain, updWith, updList_plain deref es, cramScalePart_plain]
  | .seq es => by funext s; simp only [plain, updWith, updList_plain deref es]
  | .rep e n => by funext s; simp only [plain, updWith, upd_plain deref e]
  | .onReps rs e => by funext s; simp only [plain, updWith, upd_plain deref e]
  | .varDef n es => by funext s; simp only [plain, updWith, varDefUpd, varValues_plain s.vars es]
theorem updList_plain (deref : List Upd → Score → Out) : ∀ us, updListWith deref (plainL us) = updListWith deref us
  | [] => rfl
  | u :: us => by funext s; simp only [plainL, updListWith, upd_plain deref u, updList_plain deref us]
theorem chordEvents_plain (deref : List Upd → Score → Out) : ∀ us, chordEvents deref (plainL us) = chordEvents deref us
  | [] => rfl
  | u :: us => by
    funext m s
    simp only [plainL, chordEvents, upd_plain deref u, chordEvents_plain deref us, specifiedDuration_plain]
end

theorem update_plain (us : List Upd) (s : Score) : update (plainL us) s = update us s :=
  congrFun (updList_plain derefUpd us) s

/-! ### The same text -/

/-- The formatter makes the same of both. -/
def FmtEq (m m' : Node) : Prop := m.type = m'.type ∧ ∀ f, fmtEvent m f = fmtEvent m' f

theorem FmtEq.refl (m : Node) : FmtEq m m := ⟨rfl, fun _ => rfl⟩

/-- The same for lists. -/
inductive FmtEqs : List Node → List Node → Prop where
  | nil : FmtEqs [] []
  | cons {m m' : Node} {ms ms' : List Node} : FmtEq m m' → FmtEqs ms ms' → FmtEqs (m :: ms) (m' :: ms')

theorem FmtEqs.refl : ∀ ms, FmtEqs ms ms
  | [] => .nil
  | m :: ms => .cons (.refl m) (.refl ms)

theorem FmtEqs.append {as as' bs bs' : List Node} (h : FmtEqs as as') (h2 : FmtEqs bs bs') : FmtEqs (as ++ bs) (as' ++ bs') := by
  induction h with
  | nil => exact h2
  | cons h _ ih => exact .cons h ih

theorem FmtEqs.isEmpty {ms ms' : List Node} (h : FmtEqs ms ms') : ms.isEmpty = ms'.isEmpty := by cases h <;> rfl

theorem FmtEqs.events {ms ms' : List Node} (h : FmtEqs ms ms') : ∀ f, fmtEvents ms f = fmtEvents ms' f := by
  induction h with
  | nil => intro f; rfl
  | cons h _ ih =>
    intro f
    simp only [fmtEvents, h.2 f]
    congr 1
    funext f
    exact ih f

theorem FmtEqs.any {ms ms' : List Node} (h : FmtEqs ms ms') : ms.any isNoteNode = ms'.any isNoteNode := by
  induction h with
  | nil => rfl
  | cons h _ ih => simp only [List.any_cons, ih, isNoteNode, h.1]

theorem FmtEqs.chord {ms ms' : List Node} (h : FmtEqs ms ms') : ∀ f, fmtChord ms f = fmtChord ms' f := by
  induction h with
  | nil => intro f; rfl
  | cons h ht ih =>
    intro f
    simp only [fmtChord, h.2 f, isNoteNode, h.1, ht.any]
    congr 1
    funext f
    congr 1
    funext f
    exact ih f

theorem FmtEqs.definition {ms ms' : List Node} (h : FmtEqs ms ms') : ∀ f, fmtDefinition ms f = fmtDefinition ms' f := by
  induction h with
  | nil => intro f; rfl
  | cons h ht ih =>
    intro f
    cases ht with
    | nil => simp only [fmtDefinition, h.2]
    | cons h' ht' =>
      simp only [fmtDefinition, h.2 f]
      congr 1
      funext f
      exact ih f

theorem FmtEq.chord {ms ms' : List Node} (l : Lit) (h : FmtEqs ms ms') : FmtEq (.mk .chord l ms) (.mk .chord l ms') := by
  refine ⟨rfl, fun f => ?_⟩
  simp only [fmtEvent, h.isEmpty, h.chord f]

theorem FmtEq.cram {ms ms' ds : List Node} (l l' : Lit) (h : FmtEqs ms ms') :
    FmtEq (.mk .cram l (.mk .eventSequence l' ms :: ds)) (.mk .cram l (.mk .eventSequence l' ms' :: ds)) := by
  refine ⟨rfl, fun f => ?_⟩
  simp only [fmtEvent, h.events]

theorem FmtEq.seq {ms ms' : List Node} (l : Lit) (h : FmtEqs ms ms') : FmtEq (.mk .eventSequence l ms) (.mk .eventSequence l ms') := by
  refine ⟨rfl, fun f => ?_⟩
  simp only [fmtEvent, h.events]

theorem FmtEq.group {ms ms' : List Node} (l : Lit) (h : FmtEqs ms ms') : FmtEq (.mk .voiceGroup l ms) (.mk .voiceGroup l ms') := by
  refine ⟨rfl, fun f => ?_⟩
  simp only [fmtEvent, h.events]

theorem FmtEq.voice {ms ms' : List Node} (l l' : Lit) (n : Node) (h : FmtEqs ms ms') :
    FmtEq (.mk .voice l [n, .mk .eventSequence l' ms]) (.mk .voice l [n, .mk .eventSequence l' ms']) := by
  refine ⟨rfl, fun f => ?_⟩
  simp only [fmtEvent, h.events]

theorem FmtEq.definition {ms ms' : List Node} (l l' : Lit) (n : Node) (h : FmtEqs ms ms') :
    FmtEq (.mk .variableDefinition l [n, .mk .eventSequence l' ms]) (.mk .variableDefinition l [n, .mk .eventSequence l' ms']) := by
  refine ⟨rfl, fun f => ?_⟩
  simp only [fmtEvent, h.definition]

theorem FmtEq.repeat {m m' n : Node} (l : Lit) (h : FmtEq m m') : FmtEq (.mk .repeat l [m, n]) (.mk .repeat l [m', n]) := by
  refine ⟨rfl, fun f => ?_⟩
  simp only [fmtEvent, h.2]

theorem FmtEq.onReps {m m' n : Node} (l : Lit) (h : FmtEq m m') : FmtEq (.mk .onRepetitions l [m, n]) (.mk .onRepetitions l [m', n]) := by
  refine ⟨rfl, fun f => ?_⟩
  simp only [fmtEvent, h.2]

/-- An integer is written the same way in both types of numbers. -/
theorem formatFloat_int (n : Int) : formatFloat n = intDigits n := by
  have h3 : ∀ d, fracDigits d 0 = [] := by intro d; cases d <;> simp [fracDigits]
  have hf : ∀ k : Int, 0 ≤ k → formatUnsigned (k : Rat) = natDigits k.natAbs := by
    intro k hk
    have h2 : (k : Rat) - (k : Rat) = 0 := by grind
    have h4 : k.toNat = k.natAbs := by omega
    simp only [formatUnsigned, Rat.floor_intCast, h2, h3, List.isEmpty_nil, if_true, h4]
  unfold formatFloat intDigits
  by_cases h : n < 0
  · have h1 : (n : Rat) < 0 := by simpa using (Rat.intCast_lt_intCast (a := n) (b := 0)).2 h
    have h2 : -(n : Rat) = ((-n : Int) : Rat) := by simp
    rw [if_pos h1, if_pos h, h2, hf (-n) (by omega), Int.natAbs_neg]
  · have h1 : ¬ (n : Rat) < 0 := by
      intro h2; exact h ((Rat.intCast_lt_intCast (a := n) (b := 0)).1 (by simpa using h2))
    rw [if_neg h1, if_neg h, hf n (by omega)]

/-- Groups under construction of which the formatter makes the same. -/
inductive GroupEq : Option Group → Option Group → Prop where
  | none : GroupEq none none
  | some {b b' e e' : List Node} (n : Int) : FmtEqs b b' → FmtEqs e e' → GroupEq (some ⟨b, n, e⟩) (some ⟨b', n, e'⟩)

theorem GroupEq.nodes {g g' : Option Group} (h : GroupEq g g') : FmtEqs (groupNodes g) (groupNodes g') := by
  cases h with
  | none => exact .nil
  | some n hb he => exact hb.append (.cons (.voice _ _ _ he) .nil)

theorem GroupEq.close {g g' : Option Group} (h : GroupEq g g') : FmtEqs (closeGroup g) (closeGroup g') := by
  cases h with
  | none => exact .nil
  | some n hb he => exact .cons (.group _ (hb.append (.cons (.voice _ _ _ he) .nil))) .nil

theorem GroupEq.add {g g' : Option Group} {d d' : List Node} {m m' : Node} (h : GroupEq g g') (hd : FmtEqs d d') (hm : FmtEq m m') :
    FmtEqs (addNode m (d, g)).1 (addNode m' (d', g')).1 ∧ GroupEq (addNode m (d, g)).2 (addNode m' (d', g')).2 := by
  cases h with
  | none => exact ⟨hd.append (.cons hm .nil), .none⟩
  | some n hb he => exact ⟨hd, .some n hb (he.append (.cons hm .nil))⟩

theorem bind_ok {α β : Type} {x : Except Err α} {f : α → Except Err β} {b : β} (h : (x >>= f) = .ok b) : ∃ a, x = .ok a ∧ f a = .ok b := by
  cases x with
  | error e => cases h
  | ok a => exact ⟨a, rfl, h⟩

mutual
theorem genUpd_fmtEq (order : MapOrder) : ∀ (u : Upd) {m' : Node}, genUpd order (plain u) = .ok m' →
    ∃ m, genUpd order u = .ok m ∧ FmtEq m m'
  | .leaf (.attr u), m', h => by
    cases u with
    | transposition n =>
      simp only [plain] at h
      by_cases hn : InInt32 n
      · rw [if_pos hn] at h
        refine ⟨_, rfl, ?_⟩
        cases h
        refine ⟨rfl, fun f => ?_⟩
        simp only [fmtEvent, lispText, lispTexts, formatFloat_int]
      · rw [if_neg hn] at h
        exact ⟨m', h, .refl _⟩
    | _ => exact ⟨m', h, .refl _⟩
  | .leaf (.note _ _ _), m', h | .leaf (.rest _), m', h | .leaf (.globalAttr _), m', h | .lisp _, m', h | .lispNil, m', h
  | .barline, m', h | .voice _, m', h | .voiceEnd, m', h | .marker _, m', h | .atMarker _, m', h | .varRef _, m', h
  | .partDecl _ _, m', h => ⟨m', h, .refl _⟩
  | .chord es, m', h => by
    simp only [plain, genUpd] at h
    obtain ⟨ns', h1, h2⟩ := bind_ok h
    obtain ⟨ns, h3, h4⟩ := genInner_fmtEq order es .nil .none h1
    cases h2
    exact ⟨_, by simp only [genUpd, h3, ok_bind]; rfl, .chord _ h4⟩
  | .cram es d, m', h => by
    simp only [plain, genUpd] at h
    obtain ⟨ns', h1, h2⟩ := bind_ok h
    obtain ⟨ds, h5, h6⟩ := bind_ok h2
    obtain ⟨ns, h3, h4⟩ := genInner_fmtEq order es .nil .none h1
    cases h6
    exact ⟨_, by simp only [genUpd, h3, h5, ok_bind]; rfl, .cram _ _ h4⟩
  | .seq es, m', h => by
    simp only [plain, genUpd] at h
    obtain ⟨ns', h1, h2⟩ := bind_ok h
    obtain ⟨ns, h3, h4⟩ := genInner_fmtEq order es .nil .none h1
    cases h2
    exact ⟨_, by simp only [genUpd, h3, ok_bind]; rfl, .seq _ h4⟩
  | .varDef n es, m', h => by
    simp only [plain, genUpd] at h
    obtain ⟨ns', h1, h2⟩ := bind_ok h
    obtain ⟨ns, h3, h4⟩ := genInner_fmtEq order es .nil .none h1
    cases h2
    exact ⟨_, by simp only [genUpd, h3, ok_bind]; rfl, .definition _ _ _ h4⟩
  | .rep e n, m', h => by
    simp only [plain, genUpd] at h
    obtain ⟨m1, h1, h2⟩ := bind_ok h
    obtain ⟨m, h3, h4⟩ := genUpd_fmtEq order e h1
    cases h2
    exact ⟨_, by simp only [genUpd, h3, ok_bind]; rfl, .repeat _ h4⟩
  | .onReps rs e, m', h => by
    simp only [plain, genUpd] at h
    obtain ⟨m1, h1, h2⟩ := bind_ok h
    obtain ⟨m, h3, h4⟩ := genUpd_fmtEq order e h1
    cases h2
    exact ⟨_, by simp only [genUpd, h3, ok_bind]; rfl, .onReps _ h4⟩
theorem genInner_fmtEq (order : MapOrder) : ∀ (us : List Upd) {d d' : List Node} {g g' : Option Group} {ns' : List Node},
    FmtEqs d d' → GroupEq g g' → genInner order (plainL us) d' g' = .ok ns' → ∃ ns, genInner order us d g = .ok ns ∧ FmtEqs ns ns'
  | [], d, d', g, g', ns', hd, hg, h => by
    rw [plainL, genInner] at h
    cases h
    exact ⟨_, by rw [genInner], hd.append hg.close⟩
  | u :: us, d, d', g, g', ns', hd, hg, h => by
    have hv : (∀ n, u ≠ .voice n) → u ≠ .voiceEnd → (∀ n, plain u ≠ .voice n) → plain u ≠ .voiceEnd →
        ∃ ns, genInner order (u :: us) d g = .ok ns ∧ FmtEqs ns ns' := by
      intro hu1 hu2 hu3 hu4
      rw [plainL, genInner.eq_5 order d' g' (plain u) (plainL us) hu3 hu4] at h
      obtain ⟨m', h1, h2⟩ := bind_ok h
      obtain ⟨m, h3, h4⟩ := genUpd_fmtEq order u h1
      obtain ⟨h5, h6⟩ := hg.add hd h4
      obtain ⟨ns, h7, h8⟩ := genInner_fmtEq order us h5 h6 h2
      exact ⟨ns, by rw [genInner.eq_5 order d g u us hu1 hu2, h3]; exact h7, h8⟩
    cases u with
    | voice n =>
      rw [plainL, plain, genInner.eq_2] at h
      obtain ⟨ns, h1, h2⟩ := genInner_fmtEq order us hd (.some n hg.nodes .nil) h
      exact ⟨ns, by rw [genInner.eq_2]; exact h1, h2⟩
    | voiceEnd =>
      rw [plainL, plain] at h
      cases hg with
      | none => simp only [genInner] at h; cases h
      | some n hb he =>
        simp only [genInner] at h
        have hn : FmtEqs (Group.nodes ⟨_, n, _⟩) (Group.nodes ⟨_, n, _⟩) := GroupEq.nodes (.some n hb he)
        obtain ⟨ns, h1, h2⟩ := genInner_fmtEq order us (hd.append (.cons (.group _ (hn.append (.cons (.refl _) .nil))) .nil)) .none h
        exact ⟨ns, by rw [genInner]; exact h1, h2⟩
    | leaf l =>
      cases l with
      | attr u =>
        cases u with
        | transposition n => exact hv (by simp) (by simp) (by simp only [plain]; split <;> simp) (by simp only [plain]; split <;> simp)
        | _ => exact hv (by simp) (by simp) (by simp [plain]) (by simp [plain])
      | _ => exact hv (by simp) (by simp) (by simp [plain]) (by simp [plain])
    | _ => exact hv (by simp) (by simp) (by simp [plain]) (by simp [plain])
end

/-- Splitting into parts. -/
theorem splitParts_plain (us : List Upd) : splitParts (plainL us) =
    (plainL (splitParts us).1, (splitParts us).2.map fun p => (p.1, p.2.1, plainL p.2.2)) := by
  induction us with
  | nil => rfl
  | cons u us ih =>
    cases u with
    | leaf l =>
      cases l with
      | attr u =>
        cases u with
        | transposition n => simp only [plainL, plain]; split <;> simp [splitParts, plainL, plain, *]
        | _ => simp [plainL, plain, splitParts, ih]
      | _ => simp [plainL, plain, splitParts, ih]
    | _ => simp [plainL, plain, splitParts, ih]

/-- Parts of which the formatter makes the same. -/
def PartEq (m m' : Node) : Prop := ∀ f, fmtPart m f = fmtPart m' f

theorem genParts_fmtEq (order : MapOrder) : ∀ (ps : List (List String × String × List Upd)) {ns' : List Node},
    genParts order (ps.map fun p => (p.1, p.2.1, plainL p.2.2)) = .ok ns' →
    ∃ ns, genParts order ps = .ok ns ∧ ∀ (w : Fmt), fmtParts ns w = fmtParts ns' w ∧ ns.isEmpty = ns'.isEmpty
  | [], ns', h => by cases h; exact ⟨[], rfl, fun w => ⟨rfl, rfl⟩⟩
  | (names, alias, us) :: ps, ns', h => by
    simp only [List.map_cons, genParts] at h
    obtain ⟨ms', h1, h2⟩ := bind_ok h
    obtain ⟨m', h3, h4⟩ := bind_ok h2
    cases h4
    simp only [genPart] at h3
    obtain ⟨es', h5, h6⟩ := bind_ok h3
    cases h6
    obtain ⟨ms, h7, h8⟩ := genParts_fmtEq order ps h1
    obtain ⟨es, h9, h10⟩ := genInner_fmtEq order us .nil .none h5
    refine ⟨.mk .part .none [
      .mk .partDeclaration .none (.mk .partNames .none (names.map fun n => .mk .partName (.str n) []) ::
        (if alias.isEmpty then [] else [.mk .partAlias (.str alias) []])),
      .mk .eventSequence .none es] :: ms, by simp only [genParts, genPart, h7, h9, ok_bind]; rfl, fun w => ⟨?_, rfl⟩⟩
    have hp : ∀ d f, fmtPart (.mk .part .none [d, .mk .eventSequence .none es]) f = fmtPart (.mk .part .none [d, .mk .eventSequence .none es']) f := by
      intro d f
      simp only [fmtPart, Node.type, Node.children, Node.expect, if_true, ok_bind, h10.events]
    simp only [fmtParts, hp, (h8 w).2]
    congr 1; funext f; congr 1; funext f; congr 1; funext f
    exact (h8 f).1

theorem generate_fmtEq (order : MapOrder) (us : List Upd) {m' : Node} (h : generate order (plainL us) = .ok m') :
    ∃ m, generate order us = .ok m ∧ ∀ w indent, format w indent m = format w indent m' := by
  simp only [generate, splitParts_plain] at h
  obtain ⟨ps', h1, h2⟩ := bind_ok h
  obtain ⟨ps, h3, h4⟩ := genParts_fmtEq order _ h1
  have he : (plainL (splitParts us).1).isEmpty = (splitParts us).1.isEmpty := by cases (splitParts us).1 <;> rfl
  rw [he] at h2
  by_cases hn : (splitParts us).1.isEmpty
  · rw [if_pos hn] at h2
    cases h2
    refine ⟨_, by simp only [generate, h3, ok_bind, if_pos hn]; rfl, ?_⟩
    intro w indent
    simp only [format, Node.children, (h4 _).1]
  · rw [if_neg hn] at h2
    obtain ⟨es', h5, h6⟩ := bind_ok h2
    cases h6
    obtain ⟨es, h9, h10⟩ := genInner_fmtEq order _ .nil .none h5
    refine ⟨_, by simp only [generate, h3, ok_bind, if_neg hn, h9]; rfl, ?_⟩
    intro w indent
    have hp : ∀ f, fmtPart (.mk .implicitPart .none [.mk .eventSequence .none es]) f = fmtPart (.mk .implicitPart .none [.mk .eventSequence .none es']) f := by
      intro f
      simp only [fmtPart, Node.type, Node.children, Node.expect, if_true, ok_bind, h10.events]
    simp only [format, Node.children, fmtParts, hp, (h4 (newFormatter w indent)).2]
    congr 1; congr 1; funext f; congr 1; funext f; congr 1; funext f
    exact (h4 f).1

end Syn
end Alda
