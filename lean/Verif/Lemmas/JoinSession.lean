import Verif.Lemmas.JoinParse
import Verif.Props.Repl
/-!
Lemmas about the text of a session. (For C56.)
-/
namespace Alda

theorem TwinO.trans {a b c : Out} (h : TwinO a b) (k : TwinO b c) : TwinO a c := ⟨k.err.trans h.err, h.twin.trans k.twin⟩

theorem SameDur.symm {d e : Dur} (h : SameDur d e) : SameDur e d := ⟨h.nil.symm, h.valid.symm, fun T => (h.ms T).symm⟩

theorem AkinLeaf.symm {a b : Leaf} (h : AkinLeaf a b) : AkinLeaf b a := by
  cases h with
  | note p sl h => exact .note p sl h.symm
  | rest h => exact .rest h.symm
  | attr u => exact .attr u
  | globalAttr u => exact .globalAttr u

mutual
theorem Akin.symm : ∀ (a : Upd) {b : Upd}, Akin a b → Akin b a
  | .leaf l, b, h => by simp only [Akin] at h; obtain ⟨l', rfl, h⟩ := h; simp only [Akin]; exact ⟨l, rfl, h.symm⟩
  | .chord es, b, h => by simp only [Akin] at h; obtain ⟨l', rfl, h⟩ := h; simp only [Akin]; exact ⟨es, rfl, AkinL.symm es h⟩
  | .seq es, b, h => by simp only [Akin] at h; obtain ⟨l', rfl, h⟩ := h; simp only [Akin]; exact ⟨es, rfl, AkinL.symm es h⟩
  | .varDef n es, b, h => by simp only [Akin] at h; obtain ⟨l', rfl, h⟩ := h; simp only [Akin]; exact ⟨es, rfl, AkinL.symm es h⟩
  | .cram es d, b, h => by simp only [Akin] at h; obtain ⟨l', d', rfl, h, hd⟩ := h; simp only [Akin]; exact ⟨es, d, rfl, AkinL.symm es h, hd.symm⟩
  | .rep e n, b, h => by simp only [Akin] at h; obtain ⟨l', rfl, h⟩ := h; simp only [Akin]; exact ⟨e, rfl, Akin.symm e h⟩
  | .onReps rs e, b, h => by simp only [Akin] at h; obtain ⟨l', rfl, h⟩ := h; simp only [Akin]; exact ⟨e, rfl, Akin.symm e h⟩
  | .lisp _, b, h | .lispNil, b, h | .barline, b, h | .voice _, b, h | .voiceEnd, b, h | .marker _, b, h
  | .atMarker _, b, h | .varRef _, b, h | .partDecl _ _, b, h => by simp only [Akin] at h; subst h; simp only [Akin]
theorem AkinL.symm : ∀ (a : List Upd) {b : List Upd}, AkinL a b → AkinL b a
  | [], b, h => by simp only [AkinL] at h; subst h; simp only [AkinL]
  | e :: es, b, h => by
    simp only [AkinL] at h; obtain ⟨e', es', rfl, h1, h2⟩ := h
    simp only [AkinL]
    exact ⟨e, es, rfl, Akin.symm e h1, AkinL.symm es h2⟩
end

theorem AkinO.symm {a b : Option (List Upd)} (h : AkinO a b) : AkinO b a := by
  cases a with
  | none => simp only [AkinO] at h; subst h; simp only [AkinO]
  | some es => simp only [AkinO] at h; obtain ⟨es', rfl, h⟩ := h; simp only [AkinO]; exact ⟨es, rfl, AkinL.symm es h⟩

theorem Twin.symm {s t : Score} (h : Twin s t) : Twin t s := by
  obtain ⟨f, v, es, rfl, h1, h2, h3⟩ := h
  exact ⟨fun i => (s.heap i).dur, s.vars, s.events, rfl, fun i => (h1 i).symm, fun n => (h2 n).symm, h3.symm⟩

theorem Twin.music {s t : Score} (h : Twin s t) : Spec.SameMusic s t := by
  have h' := h
  obtain ⟨f, v, es, rfl, h1, h2, h3⟩ := h
  refine ⟨h3, rfl, fun i _ => rfl, fun us => ?_⟩
  have k := update_twin (AkinL.refl us) h'
  refine ⟨k.err, ?_⟩
  obtain ⟨f, v, es, e, -, -, h4⟩ := k.twin
  rw [e]; exact h4

theorem AkinL.voice {us us' : List Upd} {n : Int} (h : AkinL us us') (hv : Upd.voice n ∉ us) : Upd.voice n ∉ us' := by
  induction us generalizing us' with
  | nil => simp only [AkinL] at h; subst h; simp
  | cons u us ih =>
    simp only [AkinL] at h
    obtain ⟨e, es, rfl, h1, h2⟩ := h
    intro hm
    rcases List.mem_cons.1 hm with hm | hm
    · subst hm
      cases u <;> simp only [Akin] at h1 <;> first
        | (obtain ⟨_, _, h1, _⟩ := h1; cases h1; done)
        | (obtain ⟨_, h1, _⟩ := h1; cases h1; done)
        | (cases h1; exact hv (List.mem_cons_self ..))
        | (cases h1; done)
    · exact ih h2 (fun h => hv (List.mem_cons_of_mem _ h)) hm

namespace Repl
open Spec Syn

theorem parseCode_ok {text : String} {us : List Upd} (h : parseCode text = .ok us) : ∃ n, Syn.parse text.toList = .ok n ∧ updatesOf n = .ok us := by
  unfold parseCode at h
  split at h
  · cases h
  · rename_i n hn; exact ⟨n, hn, h⟩

theorem parseCode_of {text : String} {us : List Upd} {n : Node} (h : Syn.parse text.toList = .ok n) (hu : updatesOf n = .ok us) : parseCode text = .ok us := by
  unfold parseCode; rw [h]; exact hu

theorem scan_of_parse {text : List Char} {n : Node} (h : Syn.parse text = .ok n) : ∃ ts, scan text = .ok ts := by
  unfold Syn.parse at h
  split at h
  · cases h
  · rename_i ts hs; exact ⟨ts, hs⟩

theorem joined_toList (a b : String) : (a ++ "\n" ++ b).toList = a.toList ++ '\n' :: b.toList := by
  simp [String.toList_append]

/-- One code after another. -/
theorem code_join {a b : String} {usA usB : List Upd} (ha : parseCode a = .ok usA) (hn : a.toList.getLast? = some 'o' → ∃ us, parseCode (a ++ "\n") = .ok us) (hb : parseCode b = .ok usB)
    (hv : Upd.voice 0 ∉ usB) (hc : ∀ x es, Upd.varDef x es ∈ usA → openAfterAll false es = false) :
    ∃ usA' i usB', parseCode (a ++ "\n" ++ b) = .ok (usA' ++ usB') ∧ AkinL usA usA' ∧ usB = List.replicate i .barline ++ usB' := by
  obtain ⟨nA, a1, a2⟩ := parseCode_ok ha
  obtain ⟨nB, b1, b2⟩ := parseCode_ok hb
  have hn' : a.toList.getLast? = some 'o' → ∃ ts, scan (a.toList ++ ['\n']) = .ok ts := by
    intro hl
    obtain ⟨us, hn⟩ := hn hl
    obtain ⟨nN, n1, -⟩ := parseCode_ok hn
    have e : (a ++ "\n").toList = a.toList ++ ['\n'] := by simp [String.toList_append]
    rw [e] at n1
    exact scan_of_parse n1
  obtain ⟨n, usA', i, usB', k1, k2, k3, k4⟩ := parse_join a1 a2 hn' b1 b2 hv hc
  exact ⟨usA', i, usB', parseCode_of (by rw [joined_toList]; exact k1) k2, k3, k4⟩

/-- The updates of the codes. -/
inductive Updates : List String → List Upd → Prop where
  | nil : Updates [] []
  | cons {c cs us vs} : parseCode c = .ok us → Updates cs vs → Updates (c :: cs) (us ++ vs)

theorem Updates.snoc {cs : List String} {vs us : List Upd} {c : String} (h : Updates cs vs) (hc : parseCode c = .ok us) : Updates (cs ++ [c]) (vs ++ us) := by
  induction h with
  | nil => have := Updates.cons hc .nil; rwa [List.append_nil] at this
  | cons h1 _ ih => rw [List.append_assoc]; exact .cons h1 ih

theorem lines_snoc (cs : List String) (c : String) : lines (cs ++ [c]) = lines cs ++ (c ++ "\n") := by
  induction cs with
  | nil => simp [lines]
  | cons d cs ih => simp only [List.cons_append, lines, ih, String.append_assoc]

/-- The text of the codes does what the codes do one after the other. -/
theorem lines_updates {codes : List String} {vs : List Upd} (h : Updates codes vs) (hc : ∀ c ∈ codes, SelfContained c) :
    ∃ us, parseCode (lines codes) = .ok us ∧ Upd.voice 0 ∉ us ∧ ∀ s s', Twin s s' → TwinO (update vs s) (update us s') := by
  induction h with
  | nil => exact ⟨[], rfl, by simp, fun s s' h => .ok h⟩
  | @cons c cs us vs h1 h2 ih =>
    obtain ⟨usB, k1, k2, k3⟩ := ih (fun c hm => hc c (List.mem_cons_of_mem _ hm))
    have sc := hc c (List.mem_cons_self ..)
    obtain ⟨usA', i, usB', j1, j2, j3⟩ := code_join h1 sc.line k1 k2 (fun x es => sc.definitions us x es h1)
    refine ⟨usA' ++ usB', j1, ?_, fun s s' hs => ?_⟩
    · intro hm
      rcases List.mem_append.1 hm with hm | hm
      · exact j2.voice (sc.voices us h1) hm
      · exact k2 (j3 ▸ List.mem_append_right _ hm)
    · refine TwinO.trans ?_ (update_joined j2 j3 hs)
      rw [update_append, update_append]
      exact TwinO.andThen ⟨rfl, .refl _⟩ k3

theorem updates_of {codes : List String} (h : ∀ c ∈ codes, ∃ us, parseCode c = .ok us) : ∃ vs, Updates codes vs := by
  induction codes with
  | nil => exact ⟨[], .nil⟩
  | cons c cs ih =>
    obtain ⟨us, h1⟩ := h c (List.mem_cons_self ..)
    obtain ⟨vs, h2⟩ := ih (fun c hm => h c (List.mem_cons_of_mem _ hm))
    exact ⟨us ++ vs, .cons h1 h2⟩

theorem handle_load {parse : String → Except Err (List Upd)} {sort : List NoteEvent → List NoteEvent} {w : World} {req : Request} {s : Server} {code : String}
    (he : Loads req code) (h0 : s.panicked = false) :
    handle parse sort w req s = finish req (fun _ => noData) (load parse sort w code s) := by
  unfold handle
  rw [if_neg (by simp [h0])]
  have hv : ¬ (validateString "op" req).length > 0 := by rw [validateString_nil]; intro h; exact h _ he.1
  simp only [if_neg hv]
  have ef : stringField "op" req = "load" := by simp [stringField, he.1]
  rw [ef]
  have hc : ¬ (validateString "code" req).length > 0 := by rw [validateString_nil]; intro h; exact h _ he.2
  have ec : stringField "code" req = code := by simp [stringField, he.2]
  simp only [ops, withCode, if_neg hc, ec]

theorem handle_new {parse : String → Except Err (List Upd)} {sort : List NoteEvent → List NoteEvent} {w : World} {req : Request} {s : Server}
    (he : req.msg "op" = some (.str "new-score")) (h0 : s.panicked = false) :
    handle parse sort w req s = finish req (fun _ => noData) (resetState w s) := by
  unfold handle
  rw [if_neg (by simp [h0])]
  have hv : ¬ (validateString "op" req).length > 0 := by rw [validateString_nil]; intro h; exact h _ he
  simp only [if_neg hv]
  have ef : stringField "op" req = "new-score" := by simp [stringField, he]
  rw [ef]
  simp only [ops]

/-- The operation behind a request that was answered without an error succeeded. -/
theorem finish_ok {req : Request} {data : Server → Response} {d : Done} {s : Server} (hs : Silent s d.s) (h : Succeeded req s (finish req data d)) : d.err = none := by
  obtain ⟨hp, resp, ha, hns⟩ := h
  obtain ⟨st, dt, h1, h2⟩ := finish_answer req data hs hp
  rcases h2 with ⟨h, _⟩ | ⟨m, _, hst, _⟩
  · exact h
  · obtain ⟨h3, _, h5⟩ := h1.answer
    have : resp = respondData req st dt := by
      have h6 := ha.symm.trans h3
      simpa using h6
    rw [this] at hns
    exact absurd ((h5 "error").2 (by rw [hst]; simp)) hns

theorem load_ok {parse : String → Except Err (List Upd)} {sort : List NoteEvent → List NoteEvent} {w : World} {code : String} {s : Server}
    (hq : (load parse sort w code s).err = none) : ∃ us sc x, parse code = .ok us ∧ update us newScore = ⟨none, sc⟩ ∧
      (load parse sort w code s).s.score = transmitted sort sc x ∧ (load parse sort w code s).s.input = trimSpace code ++ "\n" := by
  unfold load Done.andThen at hq ⊢
  cases hr : (resetState w s).err with
  | some e' => rw [hr] at hq; simp [hr] at hq
  | none =>
    rw [hr, resetState_ok hr] at hq
    rw [resetState_ok hr]
    simp only [fromWorld] at hq ⊢
    cases hw : w.player with
    | some m => rw [hw] at hq; simp at hq
    | none =>
      rw [hw] at hq
      simp only [Option.map_none] at hq ⊢
      unfold updateScoreWithInput at hq ⊢
      cases hx : parse code with
      | error e' => rw [hx] at hq; simp at hq
      | ok us =>
        rw [hx] at hq
        simp only at hq ⊢
        rcases hu : update us newScore with ⟨err, sc⟩
        rw [hu] at hq
        cases err with
        | some e' => simp at hq
        | none =>
          simp only at hq ⊢
          unfold transmitScore at hq ⊢
          simp only at hq ⊢
          generalize hxx : ({ incremental { s with input := "", score := newScore, eventIndex := 0 } with loadOnly := true } : Transmission) = x at hq ⊢
          cases hb : scoreToBundle sort sc x with
          | error e' => rw [hb] at hq; simp at hq
          | ok ms =>
            rw [hb] at hq
            simp only at hq ⊢
            cases hs : w.send with
            | some m => rw [hs] at hq; simp at hq
            | none =>
              rw [hs] at hq
              simp only at hq ⊢
              cases ho : w.offset with
              | some m => rw [ho] at hq; simp at hq
              | none => exact ⟨us, sc, x, rfl, hu, rfl, by simp⟩

/-! ### Evaluating the text again -/

theorem dropWhile_length {p : Char → Bool} (l : List Char) : (l.dropWhile p).length ≤ l.length := by
  have := congrArg List.length (List.takeWhile_append_dropWhile (p := p) (l := l))
  rw [List.length_append] at this
  omega

theorem dropWhile_all {p : Char → Bool} {l : List Char} (h : (l.dropWhile p).length = l.length) : l.dropWhile p = l := by
  have e := List.takeWhile_append_dropWhile (p := p) (l := l)
  have := congrArg List.length e
  rw [List.length_append] at this
  have : l.takeWhile p = [] := List.length_eq_zero_iff.1 (by omega)
  rw [this, List.nil_append] at e
  exact e

theorem trimmed_ends {c : String} (h : trimSpace c = c) : c.toList.dropWhile isSpace = c.toList ∧ c.toList.reverse.dropWhile isSpace = c.toList.reverse := by
  have h1 := congrArg (fun s => s.toList.length) h
  simp only [trimSpace, String.toList_ofList, List.length_reverse] at h1
  have h2 := dropWhile_length (p := isSpace) (c.toList.dropWhile isSpace).reverse
  have h3 := dropWhile_length (p := isSpace) c.toList
  rw [List.length_reverse] at h2
  have e1 : c.toList.dropWhile isSpace = c.toList := dropWhile_all (by omega)
  refine ⟨e1, dropWhile_all ?_⟩
  rw [e1] at h1
  rw [h1, List.length_reverse]

theorem dropWhile_front {p : Char → Bool} {l : List Char} (h : l.dropWhile p = l) (hn : l ≠ []) (r : List Char) : (l ++ r).dropWhile p = l ++ r := by
  cases l with
  | nil => exact absurd rfl hn
  | cons x l =>
    have hx : p x = false := by
      cases hp : p x with
      | false => rfl
      | true =>
        have h1 := congrArg List.length h
        rw [List.dropWhile_cons, if_pos hp] at h1
        have h2 := dropWhile_length (p := p) l
        simp only [List.length_cons] at h1
        omega
    rw [List.cons_append, List.dropWhile_cons, if_neg (by simp [hx])]

theorem lines_front {c : String} {cs : List String} : ∃ r, (lines (c :: cs)).toList = c.toList ++ r :=
  ⟨'\n' :: (lines cs).toList, joined_toList c (lines cs)⟩

theorem toList_ne {c : String} (h : c ≠ "") : c.toList ≠ [] := by
  intro e
  exact h (String.toList_inj.1 (by rw [e]; rfl))

/-- The text of the codes is trimmed, apart from the line break at its end. -/
theorem lines_trimmed {codes : List String} (hc : ∀ c ∈ codes, trimSpace c = c) (h0 : codes ≠ []) (h1 : codes.head? ≠ some "") (h2 : codes.getLast? ≠ some "") :
    trimSpace (lines codes) ++ "\n" = lines codes := by
  obtain ⟨cs, c, rfl⟩ : ∃ cs c, codes = cs ++ [c] := ⟨codes.dropLast, codes.getLast h0, (List.dropLast_concat_getLast h0).symm⟩
  have hcn : c ≠ "" := by rintro rfl; exact h2 (by simp)
  have hct := trimmed_ends (hc c (List.mem_append_right _ (List.mem_singleton.2 rfl)))
  have front : ((lines cs ++ c).toList ++ ['\n']).dropWhile isSpace = (lines cs ++ c).toList ++ ['\n'] := by
    cases cs with
    | nil =>
      have : lines [] ++ c = c := by simp [lines]
      rw [this]
      exact dropWhile_front hct.1 (toList_ne hcn) _
    | cons d cs =>
      have hdn : d ≠ "" := by rintro rfl; exact h1 (by simp)
      have hdt := trimmed_ends (hc d (by simp))
      obtain ⟨r, hr⟩ := @lines_front d cs
      rw [String.toList_append, hr, List.append_assoc, List.append_assoc]
      exact dropWhile_front hdt.1 (toList_ne hdn) _
  have back : (lines cs ++ c).toList.reverse.dropWhile isSpace = (lines cs ++ c).toList.reverse := by
    rw [String.toList_append, List.reverse_append]
    exact dropWhile_front hct.2 (by simpa using toList_ne hcn) _
  have e : lines (cs ++ [c]) = (lines cs ++ c) ++ "\n" := by rw [lines_snoc, String.append_assoc]
  rw [e]
  congr 1
  have et : ((lines cs ++ c) ++ "\n").toList = (lines cs ++ c).toList ++ ['\n'] := by rw [String.toList_append]; rfl
  unfold trimSpace
  rw [et, front, List.reverse_append, List.reverse_singleton, List.singleton_append, List.dropWhile_cons, if_pos (by decide), back, List.reverse_reverse, String.ofList_toList]

theorem handle_export {parse : String → Except Err (List Upd)} {sort : List NoteEvent → List NoteEvent} {w : World} {req : Request} {s : Server}
    (he : req.msg "op" = some (.str "export")) (h0 : s.panicked = false) :
    handle parse sort w req s = finish req (fun _ => put noData "binary-data" (.data "midi")) (exportScore parse sort w s) := by
  unfold handle
  rw [if_neg (by simp [h0])]
  have hv : ¬ (validateString "op" req).length > 0 := by rw [validateString_nil]; intro h; exact h _ he
  simp only [if_neg hv]
  have ef : stringField "op" req = "export" := by simp [stringField, he]
  rw [ef]
  simp only [ops]

theorem handle_again {parse : String → Except Err (List Upd)} {sort : List NoteEvent → List NoteEvent} {w : World} {req : Request} {s : Server}
    (he : req.msg "op" = some (.str "replay")) (h0 : s.panicked = false) :
    handle parse sort w req s = finish req (fun _ => noData) (replay parse sort w (stringField "from" req) (stringField "to" req) s) := by
  unfold handle
  rw [if_neg (by simp [h0])]
  have hv : ¬ (validateString "op" req).length > 0 := by rw [validateString_nil]; intro h; exact h _ he
  simp only [if_neg hv]
  have ef : stringField "op" req = "replay" := by simp [stringField, he]
  rw [ef]
  simp only [ops]

theorem replay_ok {parse : String → Except Err (List Upd)} {sort : List NoteEvent → List NoteEvent} {w : World} {f t : String} {s : Server}
    (hq : (replay parse sort w f t s).err = none) : ∃ us sc x, parse s.input = .ok us ∧ update us newScore = ⟨none, sc⟩ ∧
      (replay parse sort w f t s).s.score = transmitted sort sc x ∧ (replay parse sort w f t s).s.input = trimSpace s.input ++ "\n" := by
  unfold replay Done.andThen at hq ⊢
  cases hr : (resetState w s).err with
  | some e' => rw [hr] at hq; simp [hr] at hq
  | none =>
    rw [hr, resetState_ok hr] at hq
    rw [resetState_ok hr]
    simp only at hq ⊢
    unfold evalAndPlay Done.andThen fromWorld at hq ⊢
    cases hw : w.player with
    | some m => rw [hw] at hq; simp at hq
    | none =>
      rw [hw] at hq
      simp only [Option.map_none] at hq ⊢
      unfold updateScoreWithInput at hq ⊢
      cases hx : parse s.input with
      | error e' => rw [hx] at hq; simp at hq
      | ok us =>
        rw [hx] at hq
        simp only at hq ⊢
        rcases hu : update us newScore with ⟨err, sc⟩
        rw [hu] at hq
        cases err with
        | some e' => simp at hq
        | none =>
          simp only at hq ⊢
          unfold transmitScore at hq ⊢
          simp only at hq ⊢
          generalize hxx : ({ incremental { s with input := "", score := newScore, eventIndex := 0 } with from_ := f, to_ := t } : Transmission) = x at hq ⊢
          cases hb : scoreToBundle sort sc x with
          | error e' => rw [hb] at hq; simp at hq
          | ok ms =>
            rw [hb] at hq
            simp only at hq ⊢
            cases hs : w.send with
            | some m => rw [hs] at hq; simp at hq
            | none => exact ⟨us, sc, x, rfl, hu, rfl, by simp⟩

theorem export_silent (parse : String → Except Err (List Upd)) (sort : List NoteEvent → List NoteEvent) (w : World) (s : Server) : Silent s (exportScore parse sort w s).s :=
  Done.andThen_silent (load_silent parse sort w _ s) (fun s => fromWorld_silent _ s)

/-- What evaluating the text again leaves. -/
theorem again_ok {parse : String → Except Err (List Upd)} {sort : List NoteEvent → List NoteEvent} {w : World} {req : Request} {s : Server} (he : Reevaluates req)
    (hok : Succeeded req s (handle parse sort w req s)) : ∃ us sc x, parse s.input = .ok us ∧ update us newScore = ⟨none, sc⟩ ∧
      (handle parse sort w req s).score = transmitted sort sc x ∧ (handle parse sort w req s).input = trimSpace s.input ++ "\n" := by
  obtain ⟨hp, resp, ha, hns⟩ := id hok
  have h0 := ha.alive
  rcases he with he | he
  · rw [handle_again he h0] at hok ⊢
    have hq := finish_ok (replay_silent parse sort w _ _ s) hok
    have e : finish req (fun _ => noData) (replay parse sort w (stringField "from" req) (stringField "to" req) s) =
        respondDone req noData (replay parse sort w (stringField "from" req) (stringField "to" req) s).s := by unfold finish; rw [hq]
    rw [e]
    exact replay_ok hq
  · rw [handle_export he h0] at hok ⊢
    have hq := finish_ok (export_silent parse sort w s) hok
    have hl : (load parse sort w s.input s).err = none := by
      cases hl : (load parse sort w s.input s).err with
      | none => rfl
      | some e => unfold exportScore Done.andThen at hq; rw [hl] at hq; simp only at hq; rw [hl] at hq; cases hq
    have e : (finish req (fun _ => put noData "binary-data" (.data "midi")) (exportScore parse sort w s)) =
        respondDone req (put noData "binary-data" (.data "midi")) (load parse sort w s.input s).s := by
      unfold finish
      rw [hq]
      simp only
      unfold exportScore Done.andThen fromWorld
      rw [hl]
    rw [e]
    exact load_ok hl

/-- What a session has done. -/
theorem Typed.done {sort : List NoteEvent → List NoteEvent} (hs : SortsByOffset sort) {codes : List String} {s : Server} (h : Typed sort codes s)
    (hc : ∀ c ∈ codes, SelfContained c) : s.input = lines codes ∧ ∃ vs score, Updates codes vs ∧ update vs newScore = ⟨none, score⟩ ∧ Twin s.score score := by
  induction h with
  | start => exact ⟨rfl, [], newScore, .nil, rfl, .refl _⟩
  | @eval codes s w req code _ he hok ih =>
    obtain ⟨i1, vs, score, i2, i3, i4⟩ := ih (fun c hm => hc c (List.mem_append_left _ hm))
    obtain ⟨us, sc, ms, h1, h2, h3, h4, h5, h6, h7⟩ := evaluated he hok
    obtain ⟨es, k1, k2⟩ := transmitted_eq sort sc (incremental s)
    refine ⟨?_, vs ++ us, (update us score).s, i2.snoc h1, ?_, ?_⟩
    · rw [h7, i1, lines_snoc, (hc code (List.mem_append_right _ (List.mem_singleton.2 rfl))).trimmed]
    · have k := update_twin (AkinL.refl us) i4
      rw [update_append, i3]
      have e : (update us score).err = none := by rw [k.err, h2]
      show update us score = _
      rcases hu : update us score with ⟨err, sc'⟩
      rw [hu] at e
      rw [show err = none from e]
    · have k := (update_twin (AkinL.refl us) i4).twin
      rw [h2] at k
      rw [h4, k1]
      exact k.events (k2 hs)
  | @load codes s w req code _ he hok ih =>
    obtain ⟨hp, resp, ha, hns⟩ := id hok
    have h0 := ha.alive
    rw [handle_load he h0] at hok ⊢
    have hq := finish_ok (load_silent parseCode sort w code s) hok
    obtain ⟨us, sc, x, h1, h2, h3, h4⟩ := load_ok hq
    have e : finish req (fun _ => noData) (Repl.load parseCode sort w code s) = respondDone req noData (Repl.load parseCode sort w code s).s := by unfold finish; rw [hq]
    rw [e]
    refine ⟨?_, us ++ [], sc, .cons h1 .nil, by rw [List.append_nil]; exact h2, ?_⟩
    · show (Repl.load parseCode sort w code s).s.input = _
      rw [h4, (hc code (List.mem_singleton.2 rfl)).trimmed]; simp [lines]
    · show Twin (Repl.load parseCode sort w code s).s.score _
      obtain ⟨es, k1, k2⟩ := transmitted_eq sort sc x
      rw [h3, k1]
      exact (Twin.refl sc).events (k2 hs)
  | @new codes s w req _ he hok ih =>
    obtain ⟨hp, resp, ha, hns⟩ := id hok
    have h0 := ha.alive
    rw [handle_new he h0] at hok ⊢
    have hq := finish_ok (resetState_silent w s) hok
    have e : finish req (fun _ => noData) (resetState w s) = respondDone req noData (resetState w s).s := by unfold finish; rw [hq]
    rw [e, resetState_ok hq]
    exact ⟨rfl, [], newScore, .nil, rfl, .refl _⟩
  | @again codes s w req _ he hok n0 n1 n2 ih =>
    obtain ⟨i1, vs, score, i2, i3, i4⟩ := ih hc
    obtain ⟨us, sc, x, h1, h2, h3, h4⟩ := again_ok he hok
    obtain ⟨us', k1, -, k3⟩ := lines_updates i2 hc
    rw [i1, k1] at h1
    cases h1
    obtain ⟨es, t1, t2⟩ := transmitted_eq sort sc x
    refine ⟨by rw [h4, i1]; exact lines_trimmed (fun c hm => (hc c hm).trimmed) n0 n1 n2, vs, score, i2, i3, ?_⟩
    have k := (k3 newScore newScore (.refl _)).twin
    rw [i3, h2] at k
    rw [h3, t1]
    exact (Twin.symm k).events (t2 hs)
  | @text codes s w req codes' _ he hok hp n0 n1 n2 ih =>
    obtain ⟨hp', resp, ha, hns⟩ := id hok
    have h0 := ha.alive
    rw [handle_load he h0] at hok ⊢
    have hq := finish_ok (load_silent parseCode sort w (lines codes') s) hok
    obtain ⟨us, sc, x, h1, h2, h3, h4⟩ := load_ok hq
    have e : finish req (fun _ => noData) (Repl.load parseCode sort w (lines codes') s) = respondDone req noData (Repl.load parseCode sort w (lines codes') s).s := by
      unfold finish; rw [hq]
    rw [e]
    obtain ⟨vs, i2⟩ := updates_of hp
    obtain ⟨us', k1, -, k3⟩ := lines_updates i2 hc
    rw [k1] at h1
    cases h1
    obtain ⟨es, t1, t2⟩ := transmitted_eq sort sc x
    have k := k3 newScore newScore (.refl _)
    rw [h2] at k
    refine ⟨?_, vs, (update vs newScore).s, i2, ?_, ?_⟩
    · show (Repl.load parseCode sort w (lines codes') s).s.input = _
      rw [h4]; exact lines_trimmed (fun c hm => (hc c hm).trimmed) n0 n1 n2
    · have ke := k.err
      rcases hu : update vs newScore with ⟨err, sc'⟩
      rw [hu] at ke
      rw [show err = none from ke.symm]
    · show Twin (Repl.load parseCode sort w (lines codes') s).s.score _
      rw [h3, t1]
      exact (Twin.symm k.twin).events (t2 hs)
  | other w req _ h1 h2 ih => rw [h1, h2]; exact ih hc

end Repl
end Alda
