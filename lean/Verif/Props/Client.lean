import Verif.Lemmas.Client
import Verif.Props.Join
/-!
C57 and C58: what someone at the prompt of the REPL relies on.
-/
namespace Alda
namespace Repl
open Spec

/-! ### C57 -/

/-- No response that is still to be read has the id of the next request. -/
def Fresh (e : Env) (m : Session) : Prop := ∀ r ∈ m.inbox, r "id" ≠ some (.field (.str e.id))

theorem sendRequest_ok {t : Tools} {e : Env} {msg : String → Option Field} {m m' : Session} {resp : Response} (hf : Fresh e m)
    (h : sendRequest t e msg m = (.ok resp, m')) : e.unsent = none ∧ e.late = false ∧ InSync m := by
  cases hu : e.unsent with
  | some err => unfold sendRequest at h; simp [hu] at h
  | none =>
    cases hl : e.late with
    | true => unfold sendRequest at h; simp [hu, hl] at h
    | false =>
      refine ⟨rfl, rfl, ?_⟩
      cases hi : m.inbox with
      | nil => exact hi
      | cons r rs =>
        exfalso
        have hh : ∃ rest, (m.handled t e (requestOf e m.client msg)).inbox = r :: rest := ⟨_, by simp only [Session.handled, hi]; exact List.cons_append ..⟩
        obtain ⟨rest, hh⟩ := hh
        unfold sendRequest at h
        simp only [hu, hl] at h
        rw [hh] at h
        have hne := hf r (by rw [hi]; exact List.mem_cons_self ..)
        simp [hne] at h

theorem requestValue_text {t : Tools} {e : Env} {m m' : Session} {s : String} (hf : Fresh e m)
    (h : requestValue t e "score-text" "text" m = (.ok (.text s), m')) : s = m.server.input := by
  have hs : ∃ resp m'', sendRequest t e (message [("op", "score-text")]) m = (.ok resp, m'') := by
    unfold requestValue at h
    split at h
    · cases h
    next resp m'' hs => exact ⟨resp, m'', hs⟩
  obtain ⟨resp, m'', hs⟩ := hs
  obtain ⟨h1, h2, h3⟩ := sendRequest_ok hf hs
  have h0 : m.server.panicked = false := by
    rcases sendRequest_sync (t := t) (msg := message [("op", "score-text")]) h1 h2 h3 with ⟨err, k1, -, -⟩ | ⟨-, k, -⟩
    · rw [k1] at hs; cases hs
    · exact k
  have := scoreText_sync (t := t) (e := { e with write := none }) ⟨h1, h2, rfl⟩ h3 h0
  have e1 : requestValue t { e with write := none } "score-text" "text" m = requestValue t e "score-text" "text" m := rfl
  rw [e1, h] at this
  simp only [Prod.mk.injEq, Except.ok.injEq, Item.text.injEq] at this
  exact this.1

theorem command_of {t : Tools} {line name a : String} {args : List String} (hc : (trimSpace line).toList.head? = some ':')
    (hp : parseCommand (trimSpace line) = some (name, a)) (hs : t.split a = .ok args) : Command t line name args :=
  ⟨a, parseCommand_some hc hp, hs⟩

/-- C57: whatever is typed, and whatever happens meanwhile, a file only changes if it is saved or exported to, and then it contains the text of the score or the exported
data. -/
theorem c57_untouched (t : Tools) (e : Env) (line : String) (m : Session) (hf : Fresh e m) (f : String) (h : (typeLine t e line m).files f ≠ m.files f) :
    (∃ args, Command t line "save" args ∧ About m args f ∧ (typeLine t e line m).files f = some m.server.input) ∨
    (Command t line "export" [f] ∧ (typeLine t e line m).files f = some e.midi) := by
  unfold typeLine at h ⊢
  by_cases h1 : line = ""
  · rw [if_pos h1] at h; exact absurd rfl h
  simp only [if_neg h1] at h ⊢
  by_cases h2 : (trimSpace line).toList.head? = some ':' ∧ (trimSpace line).length > 1
  · simp only [if_pos h2] at h ⊢
    cases hp : parseCommand (trimSpace line) with
    | none => rw [hp] at h; exact absurd rfl h
    | some r =>
      obtain ⟨name, a⟩ := r
      rw [hp] at h
      simp only [reportError_files] at h ⊢
      have main : ∀ g, (handleCommand t e name a m).2.files = g → g f ≠ m.files f →
          (∃ args, Command t line "save" args ∧ About m args f ∧ g f = some m.server.input) ∨ (Command t line "export" [f] ∧ g f = some e.midi) := by
        intro g hg hne
        unfold handleCommand at hg
        split at hg
        · -- export
          unfold withArgs at hg
          split at hg
          · rw [← hg] at hne; exact absurd rfl hne
          next l hl =>
            unfold exportCommand at hg
            dsimp only at hg
            split at hg
            next x =>
              have hst := requestValue_still t e "export" "binary-data" m
              split at hg
              next hv => rw [hv] at hst; rw [← hg, hst.files] at hne; exact absurd rfl hne
              next m' hv =>
                rw [hv] at hst
                have hst := hst.files
                simp only at hst
                rw [← hst, ← hg] at hne
                obtain ⟨rfl, k⟩ := writeFile_files hne
                exact Or.inr ⟨command_of h2.1 hp hl, by rw [← hg]; exact k⟩
            · rw [← hg] at hne; exact absurd rfl hne
        · refine absurd ?_ hne
          rw [← hg]
          refine congrFun (withArgs_files (fun l _ => ?_)) f
          split <;> rfl
        · rw [← hg, showValue_files] at hne; exact absurd rfl hne
        · refine absurd ?_ hne; rw [← hg]; exact congrFun (withArgs_files (fun _ _ => loadCommand_files ..)) f
        · rw [← hg, request1_files] at hne; exact absurd rfl hne
        · rw [← hg, showValue_files] at hne; exact absurd rfl hne
        · refine absurd ?_ hne
          rw [← hg]
          refine congrFun (withArgs_files (fun l _ => ?_)) f
          split
          · rfl
          · exact request1_files ..
        · rw [← hg] at hne; exact absurd rfl hne
        · -- save
          unfold withArgs at hg
          split at hg
          · rw [← hg] at hne; exact absurd rfl hne
          next l hl =>
            unfold saveCommand at hg
            dsimp only at hg
            split at hg
            · rw [← hg] at hne; exact absurd rfl hne
            next m1 hm1 =>
              obtain ⟨k1, k2⟩ := fileArg_ok hm1
              have hst := requestValue_still t e "score-text" "text" m1
              have hfiles : m1.files = m.files := by rw [k2]
              split at hg
              next hv => rw [hv] at hst; rw [← hg, hst.files, hfiles] at hne; exact absurd rfl hne
              next s m' hv =>
                have hfr : Fresh e m1 := by unfold Fresh; rw [k2]; exact hf
                have hs := requestValue_text hfr hv
                rw [hv] at hst
                have hst' := hst.files
                simp only at hst'
                rw [← hfiles, ← hst', ← hg] at hne
                obtain ⟨hn, k⟩ := writeFile_files hne
                have hc := hst.client
                simp only at hc
                rw [hc] at hn
                refine Or.inl ⟨l, command_of h2.1 hp hl, by rw [hn]; exact k1, ?_⟩
                rw [← hg, k, hs, k2]
              next hv => rw [hv] at hst; rw [← hg, hst.files, hfiles] at hne; exact absurd rfl hne
        · refine absurd ?_ hne
          rw [← hg]
          refine congrFun (withArgs_files (fun l _ => ?_)) f
          unfold scoreCommand
          split <;> first | rfl | exact showValue_files ..
        · rw [← hg, request1_files] at hne; exact absurd rfl hne
        · rw [← hg, showValue_files] at hne; exact absurd rfl hne
        · rw [← hg] at hne; exact absurd rfl hne
      exact main _ rfl h
  · simp only [if_neg h2] at h ⊢
    split at h
    · exact absurd rfl h
    · rw [reportError_files, request1_files] at h; exact absurd rfl h

/-- C57: `:save` writes the text of the score, and does nothing else. -/
theorem c57_save {t : Tools} {e : Env} {line : String} {args : List String} {m : Session} {f : String} (hc : Command t line "save" args) (ha : About m args f)
    (he : Fine e) (hm : InSync m) (h0 : m.server.panicked = false) :
    (∀ g, (typeLine t e line m).files g = if g = f then some m.server.input else m.files g) ∧ (typeLine t e line m).client.inputFilepath = f ∧
    (typeLine t e line m).server.score = m.server.score ∧ (typeLine t e line m).server.input = m.server.input ∧
    (typeLine t e line m).shown = m.shown ∧ InSync (typeLine t e line m) := by
  obtain ⟨a, h1, h2⟩ := typeLine_command (e := e) hc (by decide) (by decide)
  rw [h2]
  simp only [handleCommand, withArgs, h1, saveCommand, fileArg_about ha]
  generalize hm1 : ({ m with client := { m.client with inputFilepath := f } } : Session) = m1
  have e1 : m1.server = m.server := by rw [← hm1]
  have e2 : m1.files = m.files := by rw [← hm1]
  have e3 : m1.shown = m.shown := by rw [← hm1]
  have e4 : m1.inbox = m.inbox := by rw [← hm1]
  have e5 : m1.client.inputFilepath = f := by rw [← hm1]
  have hm' : InSync m1 := by unfold InSync; rw [e4]; exact hm
  rw [scoreText_sync he hm' (by rw [e1]; exact h0)]
  simp only [writeFile, he.written, reportError]
  refine ⟨fun g => ?_, e5, ?_, ?_, e3, hm'⟩
  · rw [e2, e5, e1]; rfl
  · rw [← e1]; rfl
  · rw [← e1]; rfl

/-- What `:load` comes to. -/
theorem typeLine_load {t : Tools} {e : Env} {line : String} {args : List String} {m : Session} {f text : String} (hc : Command t line "load" args) (ha : About m args f)
    (hx : m.files f = some text) (he : Fine e) (hm : InSync m) (hq : Quiet m (typeLine t e line m)) :
    ∃ req, Loads req text ∧ Succeeded req m.server (handle t.parse t.sort e.world req m.server) ∧ m.server.panicked = false ∧
      typeLine t e line m = { m with client := { m.client with inputFilepath := f }, server := handle t.parse t.sort e.world req m.server } := by
  obtain ⟨a, h1, h2⟩ := typeLine_command (e := e) hc (by decide) (by decide)
  rw [h2] at hq ⊢
  simp only [handleCommand, withArgs, h1, loadCommand, fileArg_about ha, hx] at hq ⊢
  have hm' : InSync { m with client := { m.client with inputFilepath := f } } := hm
  have hq' : Quiet { m with client := { m.client with inputFilepath := f } }
      (reportError (request1 t e (message [("op", "load"), ("code", text)]) { m with client := { m.client with inputFilepath := f } })) := hq
  obtain ⟨k1, k2, k3⟩ := request1_quiet he hm' hq'
  refine ⟨_, ?_, k1, k2, k3⟩
  exact ⟨by rw [requestOf_msg _ _ _ (by decide) (by decide)]; rfl, by rw [requestOf_msg _ _ _ (by decide) (by decide)]; rfl⟩

/-- C57: if nothing is complained about, `:load` replaces the score by that of the file, and the text by that of the file but for white space around it. -/
theorem c57_load {t : Tools} (hs : SortsByOffset t.sort) {e : Env} {line : String} {args : List String} {m : Session} {f text : String} (hc : Command t line "load" args)
    (ha : About m args f) (hx : m.files f = some text) (he : Fine e) (hm : InSync m) (hq : Quiet m (typeLine t e line m)) :
    (∃ us score es, t.parse text = .ok us ∧ update us newScore = ⟨none, score⟩ ∧ (typeLine t e line m).server.score = { score with events := es } ∧
      es.Perm score.events) ∧ (typeLine t e line m).server.input = trimSpace text ++ "\n" ∧ (typeLine t e line m).client.inputFilepath = f ∧
    (typeLine t e line m).files = m.files ∧ InSync (typeLine t e line m) := by
  obtain ⟨req, h1, h2, h3, h4⟩ := typeLine_load hc ha hx he hm hq
  rw [h4]
  simp only
  rw [handle_load h1 h3] at h2 ⊢
  have hq := finish_ok (load_silent t.parse t.sort e.world text m.server) h2
  obtain ⟨us, sc, x, k1, k2, k3, k4⟩ := load_ok hq
  have ef : finish req (fun _ => noData) (load t.parse t.sort e.world text m.server) = respondDone req noData (load t.parse t.sort e.world text m.server).s := by
    unfold finish; rw [hq]
  rw [ef]
  obtain ⟨es, t1, t2⟩ := transmitted_eq t.sort sc x
  exact ⟨⟨us, sc, es, k1, k2, k3.trans t1, t2 hs⟩, k4, trivial, trivial, hm⟩

theorem Updates.accepted {codes : List String} {vs : List Upd} (h : Updates codes vs) : ∀ c ∈ codes, ∃ us, parseCode c = .ok us := by
  induction h with
  | nil => intro c hm; cases hm
  | cons h1 _ ih =>
    intro c hm
    rcases List.mem_cons.1 hm with rfl | hm
    · exact ⟨_, h1⟩
    · exact ih c hm

/-- C57, for codes that mean the same on their own as among other lines: what is saved from one session can be loaded into any other, where it is the same text and the same music.
Missing from the full statement: other codes (see C56), scores whose text is empty or begins or ends with empty lines, and files that were overwritten after an error
(`c57_lost_witness`, `c57_play_witness`). -/
theorem c57_partial {t : Tools} (ht : t.parse = parseCode) (hs : SortsByOffset t.sort) {codes : List String} {m1 m2 : Session} (h : Typed t.sort codes m1.server)
    (hc : ∀ c ∈ codes, SelfContained c) (n0 : codes ≠ []) (n1 : codes.head? ≠ some "") (n2 : codes.getLast? ≠ some "")
    {e1 e2 : Env} {line1 line2 : String} {args1 args2 : List String} {f : String}
    (c1 : Command t line1 "save" args1) (a1 : About m1 args1 f) (f1 : Fine e1) (s1 : InSync m1) (p1 : m1.server.panicked = false)
    (c2 : Command t line2 "load" args2) (a2 : About m2 args2 f) (f2 : Fine e2) (s2 : InSync m2) (q2 : Quiet m2 (typeLine t e2 line2 m2))
    (hx : m2.files f = (typeLine t e1 line1 m1).files f) :
    (typeLine t e2 line2 m2).server.input = m1.server.input ∧ SameMusic m1.server.score (typeLine t e2 line2 m2).server.score ∧
    (∀ codes', Typed t.sort codes' m2.server → Typed t.sort codes (typeLine t e2 line2 m2).server) := by
  obtain ⟨w1, -⟩ := c57_save c1 a1 f1 s1 p1
  have hx' : m2.files f = some m1.server.input := by rw [hx, w1 f, if_pos rfl]
  obtain ⟨i1, vs, score, i2, i3, i4⟩ := h.done hs hc
  obtain ⟨us, k1, -, k3⟩ := lines_updates i2 hc
  obtain ⟨⟨us', sc, es, l1, l2, l3, l4⟩, l5, -⟩ := c57_load hs c2 a2 hx' f2 s2 q2
  rw [ht, i1, k1] at l1
  cases l1
  have k := k3 newScore newScore (.refl _)
  rw [i3, l2] at k
  refine ⟨?_, ?_, ?_⟩
  · rw [l5, i1]; exact lines_trimmed (fun c hm => (hc c hm).trimmed) n0 n1 n2
  · rw [l3]; exact (Twin.symm ((Twin.symm (i4.trans k.twin)).events l4)).music
  · intro codes' h'
    obtain ⟨req, r1, r2, -, r4⟩ := typeLine_load c2 a2 hx' f2 s2 q2
    rw [r4]
    rw [ht] at r2 ⊢
    rw [i1] at r1
    exact .text e2.world req codes h' r1 r2 i2.accepted n0 n1 n2

/-! ### Adding to a file -/

theorem dropWhile_idem (l : List Char) : (l.dropWhile isSpace).dropWhile isSpace = l.dropWhile isSpace := by
  induction l with
  | nil => rfl
  | cons c l ih =>
    by_cases h : isSpace c = true
    · simp only [List.dropWhile_cons, h, if_true]; exact ih
    · simp only [List.dropWhile_cons, h]; simp [h]

theorem dropWhile_prefix {l r : List Char} (h : (l ++ r).dropWhile isSpace = l ++ r) : l.dropWhile isSpace = l := by
  cases l with
  | nil => rfl
  | cons c l =>
    by_cases hc : isSpace c = true
    · exfalso
      simp only [List.cons_append, List.dropWhile_cons, hc, if_true] at h
      have := dropWhile_length (p := isSpace) (l ++ r)
      rw [h] at this
      simp at this
      omega
    · simp [hc]

theorem trimSpace_idem (s : String) : trimSpace (trimSpace s) = trimSpace s := by
  unfold trimSpace
  rw [String.toList_ofList]
  generalize hd : s.toList.dropWhile isSpace = d
  have h1 : d.dropWhile isSpace = d := by rw [← hd]; exact dropWhile_idem _
  have h2 : (d.reverse.dropWhile isSpace).reverse.dropWhile isSpace = (d.reverse.dropWhile isSpace).reverse := by
    have e := List.takeWhile_append_dropWhile (p := isSpace) (l := d.reverse)
    have e2 : d = (d.reverse.dropWhile isSpace).reverse ++ (d.reverse.takeWhile isSpace).reverse := by
      rw [← List.reverse_append, e, List.reverse_reverse]
    rw [e2] at h1
    exact dropWhile_prefix h1
  rw [h2, List.reverse_reverse, dropWhile_idem]

/-- What a line of code comes to. -/
theorem typeLine_eval {t : Tools} {e : Env} {line : String} {m : Session} (hc : IsCode line) (he : Fine e) (hm : InSync m) (hq : Quiet m (typeLine t e line m)) :
    ∃ req, Evaluates req (trimSpace line) ∧ Succeeded req m.server (handle t.parse t.sort e.world req m.server) ∧
      typeLine t e line m = { m with server := handle t.parse t.sort e.world req m.server } := by
  rw [typeLine_code hc] at hq ⊢
  obtain ⟨k1, k2, k3⟩ := request1_quiet he hm hq
  refine ⟨_, ?_, k1, k3⟩
  exact ⟨by rw [requestOf_msg _ _ _ (by decide) (by decide)]; rfl, by rw [requestOf_msg _ _ _ (by decide) (by decide)]; rfl⟩

theorem Coded.text {t : Tools} {codes : List String} {m m' : Session} (h : Coded t codes m m') (hm : InSync m) (h0 : m.server.panicked = false) :
    m'.server.input = m.server.input ++ lines codes ∧ m'.client = m.client ∧ m'.files = m.files ∧ InSync m' ∧ m'.server.panicked = false := by
  induction h with
  | start m => exact ⟨by simp [lines], rfl, rfl, hm, h0⟩
  | @line codes m m' e line _ he hc hq ih =>
    obtain ⟨i1, i2, i3, i4, i5⟩ := ih hm h0
    obtain ⟨req, k1, k2, k3⟩ := typeLine_eval hc he i4 hq
    obtain ⟨us, sc, ms, h1, h2, h3, h4, h5, h6, h7⟩ := evaluated k1 k2
    rw [k3]
    refine ⟨?_, i2, i3, i4, k2.1⟩
    show (handle t.parse t.sort e.world req m'.server).input = _
    rw [h7, i1, trimSpace_idem, lines_snoc, String.append_assoc]

/-- C57: if a file is loaded, lines of code are typed, and it is saved, all without complaints, then the file has only had those lines added (and white space at its ends removed). -/
theorem c57_edit_partial {t : Tools} (hs : SortsByOffset t.sort) {e1 e2 : Env} {line1 line2 : String} {args1 args2 codes : List String} {m m' : Session} {f text : String}
    (c1 : Command t line1 "load" args1) (a1 : About m args1 f) (hx : m.files f = some text) (f1 : Fine e1) (s1 : InSync m) (q1 : Quiet m (typeLine t e1 line1 m))
    (hc : Coded t codes (typeLine t e1 line1 m) m') (c2 : Command t line2 "save" args2) (a2 : About m' args2 f) (f2 : Fine e2) :
    (typeLine t e2 line2 m').files f = some (trimSpace text ++ "\n" ++ lines codes) := by
  obtain ⟨-, l5, -, -, l8⟩ := c57_load hs c1 a1 hx f1 s1 q1
  have p1 : (typeLine t e1 line1 m).server.panicked = false := by
    obtain ⟨req, r1, r2, -, r4⟩ := typeLine_load c1 a1 hx f1 s1 q1
    rw [r4]; exact r2.1
  obtain ⟨i1, -, -, i4, i5⟩ := hc.text l8 p1
  obtain ⟨w1, -⟩ := c57_save c2 a2 f2 i4 i5
  rw [w1 f, if_pos rfl, i1, l5]

theorem Coded.typed {t : Tools} (ht : t.parse = parseCode) {codes0 codes : List String} {m m' : Session} (h : Coded t codes m m') (hm : InSync m) (h0 : m.server.panicked = false)
    (hy : Typed t.sort codes0 m.server) : Typed t.sort (codes0 ++ codes) m'.server := by
  induction h with
  | start m => rw [List.append_nil]; exact hy
  | @line codes m m' e line hcd he hc hq ih =>
    obtain ⟨-, -, -, i4, -⟩ := hcd.text hm h0
    obtain ⟨req, k1, k2, k3⟩ := typeLine_eval hc he i4 hq
    have i := Typed.eval e.world req (trimSpace line) (ih hm h0 hy) k1 (by rw [← ht]; exact k2)
    rw [k3, ← List.append_assoc, ht]
    exact i

/-- C57, from one prompt to another: lines of code are typed at a new server, and saved; at another one they are loaded. The text is the lines, and the music that of the
other server. -/
theorem c57_prompt_partial {t : Tools} (ht : t.parse = parseCode) (hs : SortsByOffset t.sort) {codes codes' : List String} {m m1 m2 : Session} (hn : m.server = newServer)
    (hm : InSync m) (h : Coded t codes m m1) (hc : ∀ c ∈ codes, SelfContained c) (n0 : codes ≠ []) (n1 : codes.head? ≠ some "") (n2 : codes.getLast? ≠ some "")
    {e1 e2 : Env} {line1 line2 : String} {args1 args2 : List String} {f : String}
    (c1 : Command t line1 "save" args1) (a1 : About m1 args1 f) (f1 : Fine e1)
    (c2 : Command t line2 "load" args2) (a2 : About m2 args2 f) (f2 : Fine e2) (s2 : InSync m2) (q2 : Quiet m2 (typeLine t e2 line2 m2))
    (hx : m2.files f = (typeLine t e1 line1 m1).files f) (h2 : Typed t.sort codes' m2.server) :
    (typeLine t e2 line2 m2).server.input = lines codes ∧ SameMusic m1.server.score (typeLine t e2 line2 m2).server.score ∧
    Typed t.sort codes (typeLine t e2 line2 m2).server := by
  have h0 : m.server.panicked = false := by rw [hn]; rfl
  obtain ⟨i1, -, -, i4, i5⟩ := h.text hm h0
  have hy := h.typed ht hm h0 (codes0 := []) (by rw [hn]; exact .start)
  obtain ⟨k1, k2, k3⟩ := c57_partial ht hs hy hc n0 n1 n2 c1 a1 f1 i4 i5 c2 a2 f2 s2 q2 hx
  refine ⟨?_, k2, k3 _ h2⟩
  rw [k1, i1, hn]
  rfl

/-! ### C58 -/

theorem sendRequest_inSync (t : Tools) (e : Env) (msg : String → Option Field) {m : Session} (hm : InSync m) (hl : e.late = false) : InSync (sendRequest t e msg m).2 := by
  cases hu : e.unsent with
  | some err => unfold sendRequest; rw [hu]; exact hm
  | none =>
    rcases sendRequest_sync (t := t) (msg := msg) hu hl hm with ⟨err, h1, h2, -⟩ | ⟨-, -, resp, -, -, h3⟩
    · rw [h1]; exact h2
    · rw [h3]; exact printResponseErrors_inbox _ _

theorem reportError_inbox (r : Option String × Session) : (reportError r).inbox = r.2.inbox := by
  unfold reportError
  split <;> rfl

/-- Something that is kept by sending requests, printing, and whatever else commands do, is kept by lines. -/
theorem typeLine_keeps {P : Session → Prop} (t : Tools) (e : Env) (line : String) {m : Session} (hm : P m) (hs : ∀ msg m, P m → P (sendRequest t e msg m).2)
    (hp : ∀ m x, P m → P (m.print x)) (hf : ∀ m g, P m → P { m with files := g }) (hc : ∀ m c, c.conn = m.client.conn → c.sessionID = m.client.sessionID → P m → P { m with client := c }) :
    P (typeLine t e line m) := by
  have h1 : ∀ msg m, P m → P (request1 t e msg m).2 := by
    intro msg m h
    have k := hs msg m h
    unfold request1
    split
    next hh => rw [hh] at k; exact k
    next hh => rw [hh] at k; exact k
  have h2 : ∀ op key m, P m → P (requestValue t e op key m).2 := by
    intro op key m h
    have k := hs (message [("op", op)]) m h
    unfold requestValue
    split
    next hh => rw [hh] at k; exact k
    next hh =>
      rw [hh] at k
      split <;> exact k
  have h3 : ∀ op key m, P m → P (showValue t e op key m).2 := by
    intro op key m h
    have k := h2 op key m h
    unfold showValue
    split
    next hh => rw [hh] at k; exact k
    next hh => rw [hh] at k; exact hp _ _ k
    next hh => rw [hh] at k; exact hp _ _ k
  have h4 : ∀ name contents m, P m → P (writeFile e name contents m).2 := by
    intro name contents m h
    unfold writeFile
    split
    · exact h
    · exact hf _ _ h
  have h5 : ∀ args m m', P m → fileArg args m = .ok m' → P m' := by
    intro args m m' h k
    obtain ⟨-, k2⟩ := fileArg_ok k
    rw [k2]
    exact hc m _ rfl rfl h
  have h6 : ∀ r : Option String × Session, P r.2 → P (reportError r) := by
    rintro ⟨err, m⟩ h
    cases err with
    | none => exact h
    | some err => exact hp _ _ h
  have h7 : ∀ args (k : List String → Option String × Session), (∀ l, P (k l).2) → P (withArgs t args m k).2 := by
    intro args k h
    unfold withArgs
    split
    · exact hm
    · exact h _
  unfold typeLine
  split
  · exact hm
  simp only
  split
  · split
    · exact hp _ _ hm
    · refine h6 _ ?_
      unfold handleCommand
      split
      · refine h7 _ _ (fun l => ?_)
        unfold exportCommand
        split
        · have k := h2 "export" "binary-data" m hm
          split
          next hh => rw [hh] at k; exact k
          next hh => rw [hh] at k; exact h4 _ _ _ k
        · exact hm
      · refine h7 _ _ (fun l => ?_)
        split
        · exact hm
        · exact hp _ _ hm
      · exact h3 _ _ _ hm
      · refine h7 _ _ (fun l => ?_)
        unfold loadCommand
        split
        · exact hm
        next m' hm' =>
          have k := h5 _ _ _ hm hm'
          split
          · exact k
          · exact h1 _ _ k
      · exact h1 _ _ hm
      · exact h3 _ _ _ hm
      · refine h7 _ _ (fun l => ?_)
        split
        · exact hm
        · exact h1 _ _ hm
      · exact hc _ _ rfl rfl hm
      · refine h7 _ _ (fun l => ?_)
        unfold saveCommand
        split
        · exact hm
        next m' hm' =>
          have k := h2 "score-text" "text" m' (h5 _ _ _ hm hm')
          split
          next hh => rw [hh] at k; exact k
          next hh => rw [hh] at k; exact h4 _ _ _ k
          next hh => rw [hh] at k; exact k
      · refine h7 _ _ (fun l => ?_)
        unfold scoreCommand
        split <;> first | exact hm | exact h3 _ _ _ hm
      · exact h1 _ _ hm
      · exact h3 _ _ _ hm
      · exact hm
  · split
    · exact hc _ _ rfl rfl hm
    · exact h6 _ (h1 _ _ hm)

/-- C58: if no response takes too long, there is never a response left over from an earlier line. -/
theorem c58_sync (t : Tools) (ls : List (Env × String)) (m : Session) (hm : InSync m) (hl : ∀ l ∈ ls, l.1.late = false) : InSync (typeLines t ls m) := by
  induction ls generalizing m with
  | nil => exact hm
  | cons l ls ih =>
    obtain ⟨e, line⟩ := l
    unfold typeLines
    split
    · refine ih _ ?_ (fun l h => hl l (List.mem_cons_of_mem _ h))
      have he := hl (e, line) (List.mem_cons_self ..)
      exact typeLine_keeps t e line hm (fun msg m h => sendRequest_inSync t e msg h he) (fun _ _ h => h) (fun _ _ h => h) (fun _ _ _ _ h => h)
    · exact hm

/-- C58, as long as no response has taken too long: what is shown after a line of code is what the server answers to it - nothing, or the problems that it reports -, or, if the
server is gone, an error. Missing from the full statement: lines after a response that took too long, for which it is false (`c58_late`, `c58_late_witness`). -/
theorem c58_partial {t : Tools} {e : Env} {line : String} {m : Session} (hc : IsCode line) (hu : e.unsent = none) (hl : e.late = false) (hm : InSync m) :
    ∃ req, Evaluates req (trimSpace line) ∧ (typeLine t e line m).server = handle t.parse t.sort e.world req m.server ∧
      ((typeLine t e line m).server.panicked = true ∧ Complains m (typeLine t e line m) ∨
       ∃ resp, Answered req m.server (typeLine t e line m).server resp ∧ Answer req resp ∧
        (¬ HasStatus resp "error" → (typeLine t e line m).shown = m.shown) ∧
        (HasStatus resp "error" → ∃ ps, ps ≠ [] ∧ resp "problems" = some (.strings ps) ∧ (typeLine t e line m).shown = m.shown ++ [.problems ps])) := by
  rw [typeLine_code hc]
  generalize hmsg : message [("op", "eval-and-play"), ("code", trimSpace line)] = msg
  have hev : Evaluates (requestOf e m.client msg) (trimSpace line) := by
    rw [← hmsg]
    exact ⟨by rw [requestOf_msg _ _ _ (by decide) (by decide)]; rfl, by rw [requestOf_msg _ _ _ (by decide) (by decide)]; rfl⟩
  refine ⟨requestOf e m.client msg, hev, ?_⟩
  rcases sendRequest_sync (t := t) (msg := msg) hu hl hm with ⟨err, h1, -, h3⟩ | ⟨hp, h0, resp, h1, h2, h3⟩
  · unfold request1
    rw [h1]
    exact ⟨rfl, Or.inl ⟨h3, [.error err], rfl, _, List.mem_singleton.2 rfl, .error err⟩⟩
  · have hsrv : (printResponseErrors resp { m.handled t e (requestOf e m.client msg) with inbox := [] }).server =
        handle t.parse t.sort e.world (requestOf e m.client msg) m.server := printResponseErrors_server _ _
    unfold request1
    rw [h3]
    simp only [reportError]
    rw [hsrv]
    refine ⟨rfl, Or.inr ⟨resp, h1, h2, fun hn => ?_, fun he => ?_⟩⟩
    · have : responseErrors resp = [] := by
        cases hr : responseErrors resp with
        | nil => rfl
        | cons p ps => exact absurd (responseErrors_cons h2.done (by rw [hr]; simp)) hn
      unfold printResponseErrors
      rw [this]
      rfl
    · rw [handle_eval hev h0] at h1 hp
      obtain ⟨st, dt, k1, k2⟩ := finish_answer _ _ (evalAndPlay_silent t.parse t.sort e.world (trimSpace line) "" "" m.server) hp
      have hr : resp = respondData (requestOf e m.client msg) st dt := by
        have := h1.symm.trans k1.out
        simpa using this
      rcases k2 with ⟨-, rfl, -⟩ | ⟨p, -, rfl, rfl⟩
      · exfalso
        rw [hr] at he
        exact responseErrors_nil (respondDone_errors _ _) he
      · have hpr : resp "problems" = some (.strings [p]) := by
          rw [hr, respondData_other _ _ _ (by decide) (by decide) (by decide)]; simp [put]
        refine ⟨[p], by simp, hpr, ?_⟩
        have hre : responseErrors resp = [p] := by
          unfold responseErrors
          rw [hpr, hr, respondData_status]
          simp
        unfold printResponseErrors
        rw [hre]
        rfl

/-- There is a response left over, or there will never be one again. -/
def Broken (m : Session) : Prop := m.inbox ≠ [] ∨ m.server.panicked = true

theorem Fresh.append {e : Env} {m m' : Session} {l : List Response} (h : Fresh e m) (hi : m'.inbox = m.inbox ++ l) (hl : ∀ r ∈ l, r "id" ≠ some (.field (.str e.id))) :
    Fresh e m' := by
  intro r hr
  rw [hi] at hr
  rcases List.mem_append.1 hr with hr | hr
  · exact h r hr
  · exact hl r hr

/-- Once broken, requests are of no use to the client. -/
theorem sendRequest_broken {t : Tools} {e : Env} {msg : String → Option Field} {m : Session} (hb : Broken m) (hf : Fresh e m) (ha : e.ahead = 0) :
    (∃ err, (sendRequest t e msg m).1 = .error err) ∧ Broken (sendRequest t e msg m).2 ∧
    (sendRequest t e msg m).2.shown = m.shown ∧
    ∀ e', Fresh e' m → e'.id ≠ e.id → Fresh e' (sendRequest t e msg m).2 := by
  cases hu : e.unsent with
  | some err =>
    have : sendRequest t e msg m = (.error err, m) := by unfold sendRequest; rw [hu]
    rw [this]
    exact ⟨⟨err, rfl⟩, hb, rfl, fun _ h _ => h⟩
  | none =>
    generalize hreq : requestOf e m.client msg = req
    have hcs := handled_cases t e msg m
    rw [hreq] at hcs
    have key : ∃ l, (m.handled t e req).inbox = m.inbox ++ l ∧ (l = [] → (m.handled t e req).server.panicked = true) ∧
        (∀ r ∈ l, r "id" = some (.field (.str e.id))) := by
      rcases hcs with ⟨h1, h2⟩ | ⟨-, -, resp, -, h2, h3⟩
      · exact ⟨[], by rw [h2, List.append_nil], fun _ => h1, by simp⟩
      · refine ⟨[resp], h3, by simp, fun r hr => ?_⟩
        rw [List.mem_singleton.1 hr]
        exact h2.echoes "id" (Or.inl rfl) _ (by rw [← hreq]; exact requestOf_id ..)
    obtain ⟨l, k1, k2, k3⟩ := key
    have hfr : ∀ e', Fresh e' m → e'.id ≠ e.id → Fresh e' (m.handled t e req) := by
      intro e' h hne
      refine h.append k1 (fun r hr he => hne ?_)
      rw [k3 r hr] at he
      simpa using he.symm
    have hbr : Broken (m.handled t e req) := by
      cases l with
      | nil => exact Or.inr (k2 rfl)
      | cons r l => exact Or.inl (by rw [k1]; simp)
    cases hl : e.late with
    | true =>
      have : sendRequest t e msg m = (.error "i/o timeout", m.handled t e req) := by unfold sendRequest; simp only [hu, hl, hreq]; rfl
      rw [this]
      exact ⟨⟨_, rfl⟩, hbr, rfl, hfr⟩
    | false =>
      cases hi : (m.handled t e req).inbox with
      | nil =>
        have : sendRequest t e msg m = (.error "i/o timeout", m.handled t e req) := by unfold sendRequest; simp only [hu, hl, hreq]; rw [hi]; rfl
        rw [this]
        exact ⟨⟨_, rfl⟩, hbr, rfl, hfr⟩
      | cons r rest =>
        have hne : m.inbox ≠ [] := by
          rcases hb with hb | hb
          · exact hb
          · intro h0
            rcases hcs with ⟨-, h2⟩ | ⟨h1, h2, -⟩
            · rw [h2, h0] at hi; cases hi
            · rw [hb] at h2; cases h2
        have hr : r ∈ m.inbox ∧ rest = m.inbox.tail ++ l := by
          cases hm : m.inbox with
          | nil => exact absurd hm hne
          | cons x xs =>
            rw [k1, hm] at hi
            simp only [List.cons_append, List.cons.injEq] at hi
            exact ⟨by rw [hi.1]; exact List.mem_cons_self .., by rw [← hi.2]; rfl⟩
        have hid := hf r hr.1
        have : sendRequest t e msg m = (.error "unexpected \"id\" in response", { m.handled t e req with inbox := rest }) := by
          unfold sendRequest; simp only [hu, hl, hreq]; rw [hi]; simp [hid, ha]
        rw [this]
        refine ⟨⟨_, rfl⟩, ?_, rfl, fun e' h hne' => ?_⟩
        · cases l with
          | nil => exact Or.inr (k2 rfl)
          | cons y l => exact Or.inl (by simp only; rw [hr.2]; simp)
        · intro x hx
          refine hfr e' h hne' x ?_
          rw [hi]
          exact List.mem_cons_of_mem _ hx

/-- One of the texts of `:help`. -/
def IsHelp (x : Shown) : Prop := ∃ args s, helpText replHelp args = .ok s ∧ x = .text s

/-- Nothing came of it. -/
structure Useless (e : Env) (m m' : Session) : Prop where
  broken : Broken m'
  files : m'.files = m.files
  shown : ∃ l, m'.shown = m.shown ++ l ∧ ∀ x ∈ l, IsError x ∨ IsHelp x
  fresh : ∀ e', Fresh e' m → e'.id ≠ e.id → Fresh e' m'

theorem Useless.refl {e : Env} {m : Session} (hb : Broken m) : Useless e m m := ⟨hb, rfl, ⟨[], by simp, by simp⟩, fun _ h _ => h⟩

theorem Useless.client {e : Env} {m m' : Session} {c : Client} (h : Useless e { m with client := c } m') : Useless e m m' := ⟨h.broken, h.files, h.shown, h.fresh⟩

theorem request1_broken {t : Tools} {e : Env} {msg : String → Option Field} {m : Session} (hb : Broken m) (hf : Fresh e m) (ha : e.ahead = 0) :
    (∃ err, (request1 t e msg m).1 = some err) ∧ Useless e m (request1 t e msg m).2 := by
  obtain ⟨⟨err, h1⟩, h2, h3, h4⟩ := sendRequest_broken (t := t) (msg := msg) hb hf ha
  have h5 := (sendRequest_still t e msg m).files
  unfold request1
  split
  next hh =>
    rw [hh] at h2 h3 h4 h5
    exact ⟨⟨_, rfl⟩, h2, h5, ⟨[], by simpa using h3, by simp⟩, h4⟩
  next hh => rw [hh] at h1; cases h1

theorem requestValue_broken {t : Tools} {e : Env} {op key : String} {m : Session} (hb : Broken m) (hf : Fresh e m) (ha : e.ahead = 0) :
    (∃ err, (requestValue t e op key m).1 = .error err) ∧ Useless e m (requestValue t e op key m).2 := by
  obtain ⟨⟨err, h1⟩, h2, h3, h4⟩ := sendRequest_broken (t := t) (msg := message [("op", op)]) hb hf ha
  have h5 := (sendRequest_still t e (message [("op", op)]) m).files
  unfold requestValue
  split
  next hh =>
    rw [hh] at h2 h3 h4 h5
    exact ⟨⟨_, rfl⟩, h2, h5, ⟨[], by simpa using h3, by simp⟩, h4⟩
  next hh => rw [hh] at h1; cases h1

theorem showValue_broken {t : Tools} {e : Env} {op key : String} {m : Session} (hb : Broken m) (hf : Fresh e m) (ha : e.ahead = 0) :
    Useless e m (showValue t e op key m).2 := by
  obtain ⟨⟨err, h1⟩, h2⟩ := requestValue_broken (t := t) (op := op) (key := key) hb hf ha
  unfold showValue
  split
  next hh => rw [hh] at h2; exact h2
  next hh => rw [hh] at h1; cases h1
  next hh => rw [hh] at h1; cases h1

theorem handleCommand_broken {t : Tools} {e : Env} {name args : String} {m : Session} (hb : Broken m) (hf : Fresh e m) (ha : e.ahead = 0) :
    Useless e m (handleCommand t e name args m).2 := by
  have h0 := Useless.refl (e := e) hb
  have h7 : ∀ args (k : List String → Option String × Session), (∀ l, Useless e m (k l).2) → Useless e m (withArgs t args m k).2 := by
    intro args k h
    unfold withArgs
    split
    · exact h0
    · exact h _
  have h1 := fun msg => (request1_broken (t := t) (msg := msg) hb hf ha).2
  have h3 := fun op key => showValue_broken (t := t) (op := op) (key := key) hb hf ha
  unfold handleCommand
  split
  · refine h7 _ _ (fun l => ?_)
    unfold exportCommand
    split
    · obtain ⟨⟨err, h1⟩, h2⟩ := requestValue_broken (t := t) (op := "export") (key := "binary-data") hb hf ha
      split
      next hh => rw [hh] at h2; exact h2
      next hh => rw [hh] at h1; cases h1
    · exact h0
  · refine h7 _ _ (fun l => ?_)
    split
    · exact h0
    next s hs => exact ⟨hb, rfl, ⟨[.text s], rfl, fun x hx => Or.inr ⟨l, s, hs, List.mem_singleton.1 hx⟩⟩, fun _ h _ => h⟩
  · exact h3 _ _
  · refine h7 _ _ (fun l => ?_)
    unfold loadCommand
    split
    · exact h0
    next m' hm' =>
      obtain ⟨-, k2⟩ := fileArg_ok hm'
      have hb' : Broken m' := by rw [k2]; exact hb
      have hf' : Fresh e m' := by rw [k2]; exact hf
      split
      · rw [k2]; exact ⟨hb, rfl, ⟨[], by simp, by simp⟩, fun _ h _ => h⟩
      next contents hx =>
        have hu := (request1_broken (t := t) (msg := message [("op", "load"), ("code", contents)]) hb' hf' ha).2
        generalize request1 t e _ m' = x at *
        rw [k2] at hu
        exact hu.client
  · exact h1 _
  · exact h3 _ _
  · refine h7 _ _ (fun l => ?_)
    split
    · exact h0
    · exact h1 _
  · exact ⟨hb, rfl, ⟨[], by simp, by simp⟩, fun _ h _ => h⟩
  · refine h7 _ _ (fun l => ?_)
    unfold saveCommand
    split
    · exact h0
    next m' hm' =>
      obtain ⟨-, k2⟩ := fileArg_ok hm'
      have hb' : Broken m' := by rw [k2]; exact hb
      have hf' : Fresh e m' := by rw [k2]; exact hf
      obtain ⟨⟨err, q1⟩, q2⟩ := requestValue_broken (t := t) (op := "score-text") (key := "text") hb' hf' ha
      split
      next hh =>
        rw [hh] at q2
        rw [k2] at q2
        exact q2.client
      next hh => rw [hh] at q1; cases q1
      next hh => rw [hh] at q1; cases q1
  · refine h7 _ _ (fun l => ?_)
    unfold scoreCommand
    split <;> first | exact h0 | exact h3 _ _
  · exact h1 _
  · exact h3 _ _
  · exact h0

theorem Useless.reportError {e : Env} {m : Session} {r : Option String × Session} (h : Useless e m r.2) : Useless e m (reportError r) := by
  obtain ⟨err, m'⟩ := r
  cases err with
  | none => exact h
  | some err =>
    obtain ⟨l, h1, h2⟩ := h.shown
    refine ⟨h.broken, h.files, ⟨l ++ [.error err], ?_, ?_⟩, h.fresh⟩
    · simp only [Repl.reportError, Session.print]
      rw [h1, List.append_assoc]
    · intro x hx
      rcases List.mem_append.1 hx with hx | hx
      · exact h2 x hx
      · rw [List.mem_singleton.1 hx]
        exact Or.inl (.error err)

theorem typeLine_broken (t : Tools) {e : Env} (line : String) {m : Session} (hb : Broken m) (hf : Fresh e m) (ha : e.ahead = 0) : Useless e m (typeLine t e line m) := by
  unfold typeLine
  split
  · exact .refl hb
  simp only
  split
  · split
    · exact ⟨hb, rfl, ⟨[_], rfl, fun x hx => by rw [List.mem_singleton.1 hx]; exact Or.inl (.error _)⟩, fun _ h _ => h⟩
    · exact (handleCommand_broken hb hf ha).reportError
  · split
    · exact ⟨hb, rfl, ⟨[], by simp, by simp⟩, fun _ h _ => h⟩
    · exact (request1_broken hb hf ha).2.reportError

theorem typeLines_broken (t : Tools) (ls : List (Env × String)) (m : Session) (hb : Broken m) (hf : ∀ l ∈ ls, Fresh l.1 m) (hd : (ls.map (·.1.id)).Nodup)
    (ha : ∀ l ∈ ls, l.1.ahead = 0) :
    Broken (typeLines t ls m) ∧ (typeLines t ls m).files = m.files ∧ ∃ l, (typeLines t ls m).shown = m.shown ++ l ∧ ∀ x ∈ l, IsError x ∨ IsHelp x := by
  induction ls generalizing m with
  | nil => exact ⟨hb, rfl, [], by simp [typeLines], by simp⟩
  | cons l ls ih =>
    obtain ⟨e, line⟩ := l
    simp only [List.map_cons, List.nodup_cons] at hd
    have hu := typeLine_broken t line hb (hf _ (List.mem_cons_self ..)) (ha _ (List.mem_cons_self ..))
    unfold typeLines
    split
    · obtain ⟨k1, k2, l', k3, k4⟩ := ih _ hu.broken (fun l hl => hu.fresh _ (hf l (List.mem_cons_of_mem _ hl)) (fun h => hd.1 (by
        rw [← h]; exact List.mem_map.2 ⟨l, hl, rfl⟩))) hd.2 (fun l hl => ha l (List.mem_cons_of_mem _ hl))
      obtain ⟨l'', k5, k6⟩ := hu.shown
      refine ⟨k1, k2.trans hu.files, l'' ++ l', by rw [k3, k5, List.append_assoc], fun x hx => ?_⟩
      rcases List.mem_append.1 hx with hx | hx
      · exact k6 x hx
      · exact k4 x hx
    · exact ⟨hb, rfl, [], by simp, by simp⟩

theorem sendRequest_late {t : Tools} {e : Env} {msg : String → Option Field} {m : Session} (hm : InSync m) (hs : e.unsent = none) (hl : e.late = true) :
    sendRequest t e msg m = (.error "i/o timeout", m.handled t e (requestOf e m.client msg)) ∧ Broken (m.handled t e (requestOf e m.client msg)) ∧
    ∀ e', e'.id ≠ e.id → Fresh e' (m.handled t e (requestOf e m.client msg)) := by
  refine ⟨by unfold sendRequest; simp only [hs, hl]; rfl, ?_⟩
  rcases handled_cases t e msg m with ⟨h1, h2⟩ | ⟨-, -, resp, -, h2, h3⟩
  · refine ⟨Or.inr h1, fun e' _ r hr => ?_⟩
    rw [h2, hm] at hr; cases hr
  · refine ⟨Or.inl (by rw [h3]; simp), fun e' hne r hr => ?_⟩
    rw [h3, hm] at hr
    rw [List.mem_singleton.1 hr, h2.echoes "id" (Or.inl rfl) _ (requestOf_id ..)]
    intro h
    exact hne (by simpa using h.symm)

/-- C58 is false after a response that took too long: once a line of code or an export has been answered too late, no line typed afterwards - as long as the decoder reads no further
than the response that it returns - shows anything but errors and help texts, and no file is written any more, however fast the server answers. -/
theorem c58_late (t : Tools) (e : Env) (line : String) (ls : List (Env × String)) (m : Session) (hm : InSync m)
    (hc : IsCode line ∨ ∃ f, Command t line "export" [f]) (hs : e.unsent = none) (hl : e.late = true)
    (hd : ((e, line) :: ls).Pairwise (fun a b => a.1.id ≠ b.1.id)) (ha : ∀ l ∈ ls, l.1.ahead = 0) :
    (typeLines t ls (typeLine t e line m)).files = m.files ∧
    ∃ l, (typeLines t ls (typeLine t e line m)).shown = (typeLine t e line m).shown ++ l ∧ ∀ x ∈ l, IsError x ∨ IsHelp x := by
  have key : ∃ msg, typeLine t e line m = (m.handled t e (requestOf e m.client msg)).print (.error "i/o timeout") := by
    rcases hc with hc | ⟨f, hc⟩
    · refine ⟨message [("op", "eval-and-play"), ("code", trimSpace line)], ?_⟩
      rw [typeLine_code hc]
      unfold request1
      rw [(sendRequest_late hm hs hl).1]
      rfl
    · obtain ⟨a, k1, k2⟩ := typeLine_command (e := e) hc (by decide) (by decide)
      refine ⟨message [("op", "export")], ?_⟩
      rw [k2]
      simp only [handleCommand, withArgs, k1, exportCommand, requestValue]
      rw [(sendRequest_late hm hs hl).1]
      rfl
  obtain ⟨msg, hx⟩ := key
  obtain ⟨h1, h2, h3⟩ := sendRequest_late (t := t) (msg := msg) hm hs hl
  generalize hm' : typeLine t e line m = m' at *
  rw [List.pairwise_cons] at hd
  have hfi := (sendRequest_still t e msg m).files
  rw [h1] at hfi
  obtain ⟨k1, k2, k3⟩ := typeLines_broken t ls m' (by rw [hx]; exact h2) (fun l hl' => by rw [hx]; exact h3 _ (fun h => hd.1 l hl' h.symm))
    (List.pairwise_map.2 hd.2) ha
  exact ⟨k2.trans (by rw [hx]; exact hfi), k3⟩

/-- C58: in particular, a line of code is then carried out and complained about. -/
theorem c58_late_code {t : Tools} {e : Env} {line : String} {m : Session} (hb : Broken m) (hf : Fresh e m) (ha : e.ahead = 0) (hc : IsCode line) (hs : e.unsent = none) :
    Complains m (typeLine t e line m) ∧ ∃ req, Evaluates req (trimSpace line) ∧ (typeLine t e line m).server = handle t.parse t.sort e.world req m.server := by
  rw [typeLine_code hc]
  obtain ⟨⟨err, h1⟩, h2⟩ := request1_broken (t := t) (msg := message [("op", "eval-and-play"), ("code", trimSpace line)]) hb hf ha
  generalize hmsg : message [("op", "eval-and-play"), ("code", trimSpace line)] = msg at *
  refine ⟨?_, requestOf e m.client msg, ?_, ?_⟩
  · generalize request1 t e msg m = x at *
    obtain ⟨x1, x2⟩ := x
    cases h1
    obtain ⟨l, k1, k2⟩ := h2.shown
    exact ⟨l ++ [.error err], by simp only [reportError, Session.print]; rw [k1, List.append_assoc], _, by simp, .error err⟩
  · rw [← hmsg]
    exact ⟨by rw [requestOf_msg _ _ _ (by decide) (by decide)]; rfl, by rw [requestOf_msg _ _ _ (by decide) (by decide)]; rfl⟩
  · have key : (sendRequest t e msg m).2.server = handle t.parse t.sort e.world (requestOf e m.client msg) m.server := by
      unfold sendRequest
      simp only [hs]
      split
      · rfl
      · split
        · rfl
        · split
          · rfl
          · exact printResponseErrors_server _ _
    unfold request1 reportError
    split
    next hh =>
      split at hh
      next hh' => rw [hh'] at key; cases hh; exact key
      next hh' => cases hh
    next hh =>
      split at hh
      next hh' => cases hh
      next hh' => rw [hh'] at key; cases hh; exact key

/-! ### Examples -/

/-- A stand-in for `shlex.Split`: the arguments are at most one word. -/
def demoTools : Tools := ⟨parseCode, insertionSort, fun s => .ok (if s = "" then [] else [s])⟩

/-- A client that has just been started, with a file. -/
def demoSession (name contents : String) : Session :=
  { client := ⟨true, 1, "", ""⟩, server := newServer, files := put (fun _ => none) name contents, inbox := [], shown := [] }

/-- The lines, answered at once, with the message ids m0, m1, … -/
def demoLines (ls : List String) : List (Env × String) := (ls.zipIdx 0).map fun p => ({ id := "m" ++ toString p.2 }, p.1)

/-- Codes typed, saved, and loaded by another client. -/
example : (typeLines demoTools (demoLines ["piano: c", " d e ", ":save a.alda"]) (demoSession "b" "x")).files "a.alda" = some "piano: c\nd e\n" ∧
    (typeLines demoTools (demoLines ["piano: c", " d e ", ":save a.alda"]) (demoSession "b" "x")).shown = [] ∧
    (typeLines demoTools (demoLines [":load a.alda", "f", ":save", ":score", "g @x"]) (demoSession "a.alda" "\npiano: c\nd e\n")).files "a.alda" =
      some "piano: c\nd e\nf\n" ∧
    (typeLines demoTools (demoLines [":load a.alda", "f", ":save", ":score", ":play from"]) (demoSession "a.alda" "\npiano: c\nd e\n")).shown =
      [.text "piano: c\nd e\nf\n", .error invalidArgs] := by
  decide +kernel

/-- C57 is false after a failed `:load`: the server has forgotten its text, and the next `:save` empties the file - which was never changed, and which is not the score. -/
theorem c57_lost_witness : ∃ m : Session, m = typeLines demoTools (demoLines [":load a.alda", ":save"]) (demoSession "a.alda" "piano: c (\n") ∧
    m.files "a.alda" = some "" ∧ ∃ ps, m.shown = [.problems ps] :=
  ⟨_, rfl, by decide +kernel, (typeLines demoTools (demoLines [":load a.alda", ":save"]) (demoSession "a.alda" "piano: c (\n")).shown.flatMap
    (fun | .problems ps => ps | _ => []), by decide +kernel⟩

/-- C57 is false after a failed `:play`: without a player, the server forgets the text of the score that is being worked on, and `:save` empties the file. -/
theorem c57_play_witness : ∃ m m' : Session, m = typeLines demoTools (demoLines [":load a.alda", "d", ":save"]) (demoSession "a.alda" "piano: c\n") ∧
    m.files "a.alda" = some "piano: c\nd\n" ∧ m.shown = [] ∧
    m' = typeLine demoTools { id := "m4" } ":save" (typeLine demoTools { id := "m3", world := { player := some "no player process is available" } } ":play" m) ∧
    m'.files "a.alda" = some "" ∧ m'.shown = [.problems ["no player process is available"]] := by
  refine ⟨_, _, rfl, ?_, ?_, rfl, ?_, ?_⟩
  all_goals decide +kernel

theorem inSync_of {m : Session} (h : m.inbox.isEmpty = true) : InSync m := List.isEmpty_iff.1 h

theorem not_inSync_of {m : Session} (h : m.inbox.isEmpty = false) : ¬ InSync m := fun h' => by
  unfold InSync at h'
  rw [h'] at h
  cases h

/-- C58 is false after an export that took too long: the next line of code is evaluated, but what is shown is an error. -/
theorem c58_late_witness : ∃ m m' : Session,
    m = typeLine demoTools { id := "m1", late := true } ":export a.mid" (typeLine demoTools { id := "m0" } "piano: c" (demoSession "b" "x")) ∧
    InSync (typeLine demoTools { id := "m0" } "piano: c" (demoSession "b" "x")) ∧ m' = typeLine demoTools { id := "m2" } "d" m ∧
    m'.server.input = "piano: c\nd\n" ∧ m'.server.score.events.map (fun e => (e.offset, e.note)) = [(0, 60), (500, 62)] ∧
    m'.shown = [.error "i/o timeout", .error "unexpected \"id\" in response"] ∧ ¬ InSync m' := by
  refine ⟨_, _, rfl, ?_, rfl, ?_, ?_, ?_, ?_⟩
  · exact inSync_of (by decide +kernel)
  · decide +kernel
  · decide +kernel
  · decide +kernel
  · exact not_inSync_of (by decide +kernel)

theorem quiet_of {m m' : Session} (h : m'.shown = m.shown) : Quiet m m' := ⟨[], by rw [h, List.append_nil], by simp⟩

theorem fine_of (n : String) : Fine { id := n } := ⟨rfl, rfl, rfl⟩

/-- A check of `IsCode`. -/
def isCode (line : String) : Bool :=
  decide (line ≠ "") && decide ((trimSpace line).toList.head? ≠ some ':') && decide (trimSpace line ∉ ["quit", "exit", "bye"])

theorem isCode_sound {line : String} (h : isCode line = true) : IsCode line := by
  simp only [isCode, Bool.and_eq_true, decide_eq_true_eq, List.mem_cons, List.not_mem_nil, or_false, not_or] at h
  refine ⟨h.1.1, fun c l e => h.1.2 ?_, h.2⟩
  rw [e, String.toList_ofList]
  rfl

/-- The prompt at which two lines of code are typed. -/
def demoTyped : Session := typeLine demoTools { id := "m1" } " d e " (typeLine demoTools { id := "m0" } "piano: c" (demoSession "b" "x"))

/-- Another prompt, with the file. -/
def demoOther : Session := { demoSession "b" "y" with files := (typeLine demoTools { id := "m2" } ":save a.alda" demoTyped).files }

/-- The hypotheses of `c57_prompt_partial`. -/
example : Coded demoTools ["piano: c", "d e"] (demoSession "b" "x") demoTyped ∧ (∀ c ∈ ["piano: c", "d e"], SelfContained c) ∧
    Command demoTools ":save a.alda" "save" ["a.alda"] ∧ Command demoTools ":load a.alda" "load" ["a.alda"] ∧ About demoTyped ["a.alda"] "a.alda" ∧ InSync demoOther ∧
    Quiet demoOther (typeLine demoTools { id := "m0" } ":load a.alda" demoOther) ∧ Typed insertionSort [] demoOther.server ∧
    (typeLine demoTools { id := "m0" } ":load a.alda" demoOther).server.input = "piano: c\nd e\n" := by
  have t1 : trimSpace "piano: c" = "piano: c" := by decide +kernel
  have t2 : trimSpace " d e " = "d e" := by decide +kernel
  refine ⟨?_, ?_, ⟨"a.alda", Or.inl (by decide +kernel), rfl⟩, ⟨"a.alda", Or.inl (by decide +kernel), rfl⟩, Or.inl rfl, rfl, quiet_of (by decide +kernel), .start, by decide +kernel⟩
  · have h1 := Coded.line { id := "m0" } "piano: c" (.start (t := demoTools) (demoSession "b" "x")) (fine_of _) (isCode_sound (by decide +kernel)) (quiet_of (by decide +kernel))
    have h2 := Coded.line { id := "m1" } " d e " h1 (fine_of _) (isCode_sound (by decide +kernel)) (quiet_of (by decide +kernel))
    rw [t1, t2] at h2
    exact h2
  · intro c hm
    refine selfContained_sound ?_
    revert c
    decide +kernel

/-- The hypotheses of `c58_late`. -/
example : InSync (typeLine demoTools { id := "m0" } "piano: c" (demoSession "b" "x")) ∧ Command demoTools ":export a.mid" "export" ["a.mid"] ∧
    (({ id := "m1", late := true }, ":export a.mid") :: [(({ id := "m2" } : Env), "d"), ({ id := "m3" }, ":save b")]).Pairwise (fun a b => a.1.id ≠ b.1.id) ∧
    (typeLines demoTools [({ id := "m2" }, "d"), ({ id := "m3" }, ":save b")] (typeLine demoTools { id := "m1", late := true } ":export a.mid"
      (typeLine demoTools { id := "m0" } "piano: c" (demoSession "b" "x")))).shown =
      [.error "i/o timeout", .error "unexpected \"id\" in response", .error "unexpected \"id\" in response"] := by
  refine ⟨inSync_of (by decide +kernel), ⟨"a.mid", Or.inl (by decide +kernel), rfl⟩, ?_, by decide +kernel⟩
  simp

end Repl
end Alda
