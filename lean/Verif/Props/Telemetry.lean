import Verif.Spec.Telemetry
/-!
C68: telemetry is sent only as the user has been told and has chosen.
-/
namespace Alda
namespace Telemetry

theorem run_snoc (w : World) (ss : List Step) (s : Step) : w.run (ss ++ [s]) = (w.run ss).step s := by simp [World.run, List.foldl_append]
theorem tel_run_cons (w : World) (ss : List Step) (s : Step) : w.run (s :: ss) = (w.step s).run ss := rfl

/-! ### One process alone -/

/-- What holds when the program is done, if only allowed things go wrong. -/
def Post (A : Step → Prop) (Q : Option Content → List Event → Prop) : Prog → Option Content → List Event → Prop
  | .done, f, l => Q f l
  | .read k, f, l => ∀ s, A s → Post A Q (k (statusOf f s.readFails)) f l
  | .create c k, f, l => ∀ s t, A s → A t → if s.createFails then Post A Q (k false) f l else
      match t.fillFails with
      | none => Post A Q (k true) (some c) l
      | some all => Post A Q (k false) (some (if all then c else .other)) l
  | .fill c k, _, l => ∀ t, A t →
      match t.fillFails with
      | none => Post A Q (k true) (some c) l
      | some all => Post A Q (k false) (some (if all then c else .other)) l
  | .emit e k, f, l => Post A Q k f (l ++ [e])

theorem post_run {A : Step → Prop} {Q : Option Content → List Event → Prop} (ss : List Step) (hA : ∀ s ∈ ss, A s) :
    ∀ (w : World) (p : Prog), w.procs = [p] → Post A Q p w.file (w.log.map (·.2)) → (w.run ss).procs = [.done] → Q (w.run ss).file ((w.run ss).log.map (·.2)) := by
  induction ss with
  | nil =>
    intro w p hp h hd
    simp only [World.run, List.foldl_nil] at hd ⊢
    rw [hp] at hd
    cases hd
    exact h
  | cons s ss ih =>
    intro w p hp h hd
    rw [tel_run_cons] at hd ⊢
    have hs := hA s (List.mem_cons_self ..)
    have ih' := ih (fun s hs => hA s (List.mem_cons_of_mem _ hs))
    cases hi : s.proc with
    | succ n =>
      have : w.step s = w := by simp [World.step, hp, hi]
      rw [this] at hd ⊢
      exact ih' w p hp h hd
    | zero =>
      cases p with
      | done =>
        have : w.step s = w := by simp [World.step, hp, hi]
        rw [this] at hd ⊢
        exact ih' w _ hp h hd
      | read k =>
        have e : w.step s = { w with procs := [k (statusOf w.file s.readFails)] } := by simp [World.step, hp, hi]
        rw [e] at hd ⊢
        exact ih' _ _ rfl (h s hs) hd
      | create c k =>
        by_cases hc : s.createFails = true
        · have e : w.step s = { w with procs := [k false] } := by simp [World.step, hp, hi, hc]
          rw [e] at hd ⊢
          have := h s s hs hs
          rw [if_pos hc] at this
          exact ih' _ _ rfl this hd
        · have e : w.step s = { w with file := some .other, procs := [.fill c k] } := by simp [World.step, hp, hi, hc]
          rw [e] at hd ⊢
          refine ih' _ _ rfl ?_ hd
          intro t ht
          have := h s t hs ht
          rwa [if_neg hc] at this
      | fill c k =>
        have h := h s hs
        cases hf : s.fillFails with
        | none =>
          have e : w.step s = { w with file := some c, procs := [k true] } := by simp [World.step, hp, hi, hf]
          rw [e] at hd ⊢
          rw [hf] at h
          exact ih' _ _ rfl h hd
        | some all =>
          have e : w.step s = { w with file := some (if all then c else .other), procs := [k false] } := by simp [World.step, hp, hi, hf]
          rw [e] at hd ⊢
          rw [hf] at h
          exact ih' _ _ rfl h hd
      | emit ev k =>
        have e : w.step s = { w with procs := [k], log := w.log ++ [(0, ev)] } := by simp [World.step, hp, hi]
        rw [e] at hd ⊢
        exact ih' _ _ rfl (by simpa [Post] using h) hd

/-! ### All processes -/

/-- What holds for the world and each process is kept by the step of one process. -/
theorem procs_step {I : Nat → Prog → Prop} {w : World} {s : Step} {q : Prog} (h : ∀ (i : Nat) p, w.procs[i]? = some p → I i p) (hq : I s.proc q) :
    ∀ i p, (w.procs.set s.proc q)[i]? = some p → I i p := by
  intro i r hr
  rw [List.getElem?_set] at hr
  split at hr
  next he =>
    split at hr
    · cases hr; exact he ▸ hq
    · cases hr
  · exact h i r hr

/-- If the file says `disabled`, the program neither writes nor sends. -/
def Quiet : Prog → Prop
  | .done => True
  | .read k => Quiet (k .disabled)
  | .create _ _ => False
  | .fill _ _ => False
  | .emit e k => (∀ p, e ≠ .sent p) ∧ Quiet k

theorem quiet_inform {env : Bool} {k : Prog} (h : Quiet k) : Quiet (informUserOfTelemetryIfNeeded env k) := by cases env <;> simpa [informUserOfTelemetryIfNeeded, readTelemetryStatus, Quiet] using h

theorem quiet_help (env : Bool) (n : Nat) : Quiet (help env n) := by
  induction n with
  | zero => trivial
  | succ n ih => exact quiet_inform ih

theorem quiet_prog {v : Invocation} (hv : ¬ v.Chooses) : Quiet v.prog := by
  unfold Invocation.prog
  split
  · refine quiet_inform ?_
    have hr : Quiet (match v.flags with | some f => telemetryCmd v.env f (help v.env v.helps) | none => help v.env v.helps) := by
      cases hf : v.flags with
      | none => exact quiet_help ..
      | some f =>
        have h1 : f.enable = false := by
          cases he : f.enable with
          | false => rfl
          | true => exact absurd ⟨f, hf, .inl he⟩ hv
        have h2 : f.disable = false := by
          cases he : f.disable with
          | false => rfl
          | true => exact absurd ⟨f, hf, .inr he⟩ hv
        have := quiet_help v.env v.helps
        simp only [telemetryCmd, h1, h2, Bool.and_false, Bool.false_eq_true, if_false, showTelemetryStatus]
        unfold readTelemetryStatus
        split <;> exact ⟨by simp, this⟩
    unfold sendTelemetry
    split
    · exact hr
    · unfold readTelemetryStatus
      split <;> exact hr
  · exact quiet_help ..

theorem quiet_run (ss : List Step) (hr : Readable ss) : ∀ w : World, w.file = some .disabled → (∀ (i : Nat) p, w.procs[i]? = some p → Quiet p) → (∀ x ∈ w.log, ∀ p, x.2 ≠ .sent p) →
    (w.run ss).file = some .disabled ∧ ∀ x ∈ (w.run ss).log, ∀ p, x.2 ≠ .sent p := by
  induction ss with
  | nil => intro w h1 _ h3; exact ⟨h1, h3⟩
  | cons s ss ih =>
    intro w h1 h2 h3
    rw [tel_run_cons]
    have ih := ih (fun s hs => hr s (List.mem_cons_of_mem _ hs))
    have hrf : s.readFails = false := hr s (List.mem_cons_self ..)
    unfold World.step
    cases hp : w.procs[s.proc]? with
    | none => exact ih w h1 h2 h3
    | some p =>
      have hq := h2 _ _ hp
      cases p with
      | done => exact ih w h1 h2 h3
      | read k =>
        refine ih _ h1 (procs_step (I := fun _ p => Quiet p) h2 ?_) h3
        simpa [h1, hrf, statusOf, Quiet] using hq
      | create c k => exact hq.elim
      | fill c k => exact hq.elim
      | emit e k =>
        refine ih _ h1 (procs_step (I := fun _ p => Quiet p) h2 hq.2) ?_
        intro x hx
        simp only [List.mem_append, List.mem_singleton] at hx
        rcases hx with hx | rfl
        · exact h3 x hx
        · exact hq.1

theorem start_procs {file : Option Content} {vs : List Invocation} {i : Nat} {p : Prog} (h : (start file vs).procs[i]? = some p) : ∃ v, vs[i]? = some v ∧ p = v.prog := by
  simp only [start, List.getElem?_map, Option.map_eq_some_iff] at h
  obtain ⟨v, h1, h2⟩ := h
  exact ⟨v, h1, h2.symm⟩

/-! ### What is said -/

/-- What has been said of the status is what is in the file. -/
def Said (f : Option Content) (l : List Event) : Prop := ∀ b, Event.report b ∈ l → (b = false ↔ f = some .disabled)

theorem post_inform {Q : Option Content → List Event → Prop} {k : Prog} {f : Option Content} {l : List Event}
    (h1 : f ≠ none → Post (·.readFails = false) Q k f l) (h2 : ∀ f', (f ≠ some .disabled → f' ≠ some .disabled) → f ≠ some .enabled → f ≠ some .disabled → Post (·.readFails = false) Q k f' (l ++ [.notice])) :
    Post (·.readFails = false) Q (informUserOfTelemetryIfNeeded false k) f l := by
  simp only [informUserOfTelemetryIfNeeded, readTelemetryStatus, Bool.false_eq_true, if_false, Post]
  intro s hs
  rw [hs]
  have key : f ≠ some .enabled → f ≠ some .disabled → Post (·.readFails = false) Q (informUserOfTelemetry k) f l := by
    intro he hd
    simp only [informUserOfTelemetry, writeTelemetryStatus, Post]
    intro s t _ _
    split
    · exact h2 _ (fun h => h) he hd
    · split
      · exact h2 _ (fun _ => by simp) he hd
      next all _ => exact h2 _ (fun _ => by cases all <;> simp) he hd
  match f with
  | none => exact key (by simp) (by simp)
  | some .enabled => exact h1 (by simp)
  | some .disabled => exact h1 (by simp)
  | some .other => exact key (by simp) (by simp)

theorem said_help (n : Nat) : ∀ f l, Said f l → Post (·.readFails = false) Said (help false n) f l := by
  induction n with
  | zero => intro f l h; exact h
  | succ n ih =>
    intro f l h
    refine post_inform (fun _ => ih f l h) ?_
    intro f' h1 _ h3
    refine ih _ _ ?_
    intro b hb
    have hb : Event.report b ∈ l := by simpa using hb
    have := h b hb
    have h4 := h1 h3
    simp [this, h3, h4]

theorem said_report {f : Option Content} {l : List Event} (b : Bool) (h0 : ∀ c, Event.report c ∉ l) (h : b = false ↔ f = some .disabled) : Said f (l ++ [.report b]) := by
  intro c hc
  simp only [List.mem_append, List.mem_singleton, Event.report.injEq] at hc
  rcases hc with hc | rfl
  · exact absurd hc (h0 c)
  · exact h

theorem said_cmd (f : Flags) (n : Nat) (file : Option Content) (l : List Event) (h0 : ∀ c, Event.report c ∉ l) :
    Post (·.readFails = false) Said (telemetryCmd false f (help false n)) file l := by
  have nothing : ∀ file, Said file l := fun _ b hb => absurd hb (h0 b)
  have notice : ∀ c, Event.report c ∉ l ++ [Event.notice] := by intro c hc; simp at hc; exact h0 c hc
  unfold telemetryCmd
  split
  · exact said_help _ _ _ (nothing _)
  · split
    · simp only [writeTelemetryStatus, Post]
      intro s t _ _
      split
      · exact said_help _ _ _ (nothing _)
      · split
        · exact said_help _ _ _ (said_report true h0 (by simp))
        · exact said_help _ _ _ (nothing _)
    · split
      · simp only [writeTelemetryStatus, Post]
        intro s t _ _
        split
        · exact said_help _ _ _ (nothing _)
        · split
          · exact said_help _ _ _ (said_report false h0 (by simp))
          · exact said_help _ _ _ (nothing _)
      · simp only [showTelemetryStatus, readTelemetryStatus, Bool.false_eq_true, if_false, Post]
        intro s hs
        rw [hs]
        match file with
        | none =>
          simp only [statusOf, informUserOfTelemetry, writeTelemetryStatus, Post]
          intro s t _ _
          split
          · exact said_help _ _ _ (said_report true notice (by simp))
          · split
            · exact said_help _ _ _ (said_report true notice (by simp))
            next all _ => exact said_help _ _ _ (said_report true notice (by cases all <;> simp))
        | some .enabled => exact said_help _ _ _ (said_report true h0 (by simp))
        | some .disabled => exact said_help _ _ _ (said_report false h0 (by simp))
        | some .other => exact said_help _ _ _ (nothing _)

theorem said_prog (v : Invocation) (he : v.env = false) (file : Option Content) : Post (·.readFails = false) Said v.prog file [] := by
  have none : ∀ (l : List Event) f, (∀ c, Event.report c ∉ l) → Said f l := fun l f h b hb => absurd hb (h b)
  have rest : ∀ file l, (∀ c, Event.report c ∉ l) → Post (·.readFails = false) Said (match v.flags with | some f => telemetryCmd v.env f (help v.env v.helps) | Option.none => help v.env v.helps) file l := by
    intro file l h
    rw [he]
    cases v.flags with
    | none => exact said_help _ _ _ (none _ _ h)
    | some f => exact said_cmd f _ _ _ h
  have send : ∀ file l, (∀ c, Event.report c ∉ l) → Post (·.readFails = false) Said
      (sendTelemetry v.os v.arch v.version v.env v.name (match v.flags with | some f => telemetryCmd v.env f (help v.env v.helps) | Option.none => help v.env v.helps)) file l := by
    intro file l h
    unfold sendTelemetry
    split
    · exact rest _ _ h
    · rw [he]
      simp only [readTelemetryStatus, Bool.false_eq_true, if_false, Post]
      rw [he] at rest
      intro s _
      have h' : ∀ c, Event.report c ∉ l ++ [Event.sent ⟨v.os, v.arch, v.version, v.name⟩] := by intro c hc; simp at hc; exact h c hc
      cases statusOf file s.readFails with
      | notInformed => exact rest _ _ h'
      | enabled => exact rest _ _ h'
      | disabled => exact rest _ _ h
      | failed => exact rest _ _ h
  unfold Invocation.prog
  split
  · have : informUserOfTelemetryIfNeeded v.env = informUserOfTelemetryIfNeeded false := by rw [he]
    rw [this]
    exact post_inform (fun _ => send _ _ (by simp)) (fun f' _ _ _ => send _ _ (by simp))
  · rw [he]
    exact said_help _ _ _ (none _ _ (by simp))

/-- With a file that does not say `disabled`, and nothing going wrong, a command sends; with one that does, it does not. -/
theorem sends_prog (v : Invocation) (he : v.env = false) (hp : v.prerun = true) (hn : v.name ≠ "alda") (file : Option Content) :
    Post (fun s => s.readFails = false ∧ s.createFails = false ∧ s.fillFails = none) (fun _ l => (∃ p, Event.sent p ∈ l) ↔ file ≠ some .disabled) v.prog file [] := by
  have tail : ∀ (B : Prop) (l : List Event) f, ((∃ p, Event.sent p ∈ l) ↔ B) → Post (fun s => s.readFails = false ∧ s.createFails = false ∧ s.fillFails = none) (fun _ l => (∃ p, Event.sent p ∈ l) ↔ B)
      (match v.flags with | some f => telemetryCmd false f (help false v.helps) | Option.none => help false v.helps) f l := by
    intro B
    have hh : ∀ n (l : List Event) f, ((∃ p, Event.sent p ∈ l) ↔ B) → Post (fun s => s.readFails = false ∧ s.createFails = false ∧ s.fillFails = none) (fun _ l => (∃ p, Event.sent p ∈ l) ↔ B) (help false n) f l := by
      intro n
      induction n with
      | zero => intro l f h; exact h
      | succ n ih =>
        intro l f h
        simp only [help, informUserOfTelemetryIfNeeded, readTelemetryStatus, Bool.false_eq_true, if_false, Post]
        intro s _
        have inf : Post (fun s => s.readFails = false ∧ s.createFails = false ∧ s.fillFails = none) (fun _ l => (∃ p, Event.sent p ∈ l) ↔ B) (informUserOfTelemetry (help false n)) f l := by
          simp only [informUserOfTelemetry, writeTelemetryStatus, Post]
          intro s t hs ht
          simp only [hs.2.1, ht.2.2, Bool.false_eq_true, if_false]
          exact ih _ _ (by simpa using h)
        cases statusOf f s.readFails with
        | notInformed => exact inf
        | enabled => exact ih _ _ h
        | disabled => exact ih _ _ h
        | failed => exact inf
    intro l f h
    cases v.flags with
    | none => exact hh _ _ _ h
    | some g =>
      simp only [telemetryCmd]
      split
      · exact hh _ _ _ h
      · split
        · simp only [writeTelemetryStatus, Post]
          intro s t hs ht
          simp only [hs.2.1, ht.2.2, Bool.false_eq_true, if_false, if_true]
          exact hh _ _ _ (by simpa using h)
        · split
          · simp only [writeTelemetryStatus, Post]
            intro s t hs ht
            simp only [hs.2.1, ht.2.2, Bool.false_eq_true, if_false, if_true]
            exact hh _ _ _ (by simpa using h)
          · simp only [showTelemetryStatus, readTelemetryStatus, Bool.false_eq_true, if_false, Post]
            intro s _
            cases statusOf f s.readFails with
            | notInformed =>
              simp only [informUserOfTelemetry, writeTelemetryStatus, Post]
              intro s t hs ht
              simp only [hs.2.1, ht.2.2, Bool.false_eq_true, if_false]
              exact hh _ _ _ (by simpa using h)
            | enabled => exact hh _ _ _ (by simpa using h)
            | disabled => exact hh _ _ _ (by simpa using h)
            | failed => exact hh _ _ _ h
  simp only [Invocation.prog, hp, if_true, he, informUserOfTelemetryIfNeeded, readTelemetryStatus, Bool.false_eq_true, if_false, Post, sendTelemetry, hn]
  intro s hs
  have inf : file ≠ some .disabled → Post (fun s => s.readFails = false ∧ s.createFails = false ∧ s.fillFails = none) (fun _ l => (∃ p, Event.sent p ∈ l) ↔ file ≠ some .disabled)
      (informUserOfTelemetry (sendTelemetry v.os v.arch v.version false v.name (match v.flags with | some f => telemetryCmd false f (help false v.helps) | Option.none => help false v.helps))) file [] := by
    intro hd
    simp only [informUserOfTelemetry, writeTelemetryStatus, Post]
    intro s t hs ht
    simp only [hs.2.1, ht.2.2, Bool.false_eq_true, if_false, sendTelemetry, hn, readTelemetryStatus, Post]
    intro s hs
    simp only [statusOf, hs.1, Bool.false_eq_true, if_false, Post]
    exact tail _ _ _ (by simp [hd])
  simp only [sendTelemetry, hn, if_false, readTelemetryStatus, Bool.false_eq_true] at inf
  rw [hs.1]
  match file with
  | none => exact inf (by simp)
  | some .other => exact inf (by simp)
  | some .enabled =>
    simp only [statusOf, Bool.false_eq_true, if_false, Post]
    intro s hs
    simp only [hs.1, Bool.false_eq_true, if_false, Post]
    exact tail _ _ _ (by simp)
  | some .disabled =>
    simp only [statusOf, Bool.false_eq_true, if_false, Post]
    intro s hs
    simp only [hs.1, Bool.false_eq_true, if_false]
    exact tail _ _ _ (by simp)

/-! ### The theorems -/

theorem said_alone {file : Option Content} {v : Invocation} (he : v.env = false) {ss : List Step} {file' : Option Content} {events : List Event} (h : Alone file v ss file' events) (hr : Readable ss) : Said file' events := by
  obtain ⟨h1, h2, h3⟩ := h
  have := post_run (A := (·.readFails = false)) (Q := Said) ss hr (start file [v]) v.prog rfl (said_prog v he file) h1
  rw [← h2, ← h3]
  exact this

/-- C68: when `alda telemetry --disable` has said that telemetry is disabled, no command sends any telemetry, however many run at the same time and in whatever order, and the file goes on
saying so. Missing from the full statement: a file that cannot be read (`c68_read_witness`), and commands that run at the same time as `alda telemetry --disable` (`c68_race_witness`). -/
theorem c68_disabled_partial {file file' : Option Content} {d : Invocation} {ss : List Step} {events : List Event} (he : d.env = false) (h : Alone file d ss file' events) (hr : Readable ss)
    (hs : Event.report false ∈ events) (vs : List Invocation) (hv : ∀ v ∈ vs, ¬ v.Chooses) (ss' : List Step) (hr' : Readable ss') :
    let w := (start file' vs).run ss'
    w.file = some .disabled ∧ ∀ x ∈ w.log, ∀ p, x.2 ≠ .sent p := by
  have hf : file' = some .disabled := (said_alone he h hr false hs).1 rfl
  subst hf
  refine quiet_run ss' hr' _ rfl ?_ (by intro x hx; cases hx)
  intro i p hp
  obtain ⟨v, h1, rfl⟩ := start_procs hp
  exact quiet_prog (hv v (List.mem_of_getElem? h1))

/-- C68: what `alda telemetry` says is true: the next command sends telemetry if and only if it has said that it is enabled. -/
theorem c68_status {file file' file'' : Option Content} {d v : Invocation} {ss ss' : List Step} {events events' : List Event} {b : Bool} (hd : d.env = false) (h : Alone file d ss file' events)
    (hr : Readable ss) (hs : Event.report b ∈ events) (hv : v.env = false) (hp : v.prerun = true) (hn : v.name ≠ "alda") (h' : Alone file' v ss' file'' events') (hf : Fine ss') :
    (∃ p, Event.sent p ∈ events') ↔ b = true := by
  have h1 := said_alone hd h hr b hs
  obtain ⟨h2, h3, h4⟩ := h'
  have := post_run (A := fun s => s.readFails = false ∧ s.createFails = false ∧ s.fillFails = none) (Q := fun _ l => (∃ p, Event.sent p ∈ l) ↔ file' ≠ some .disabled) ss' hf (start file' [v]) v.prog rfl
    (sends_prog v hv hp hn file') h2
  rw [h4] at this
  rw [this]
  cases b <;> simp at h1 <;> simp [h1]

/-- The program sends at most so often, and only such payloads. -/
def Sends (P : Payload → Prop) : Nat → Prog → Prop
  | _, .done => True
  | n, .read k => ∀ st, Sends P n (k st)
  | n, .create _ k => ∀ b, Sends P n (k b)
  | n, .fill _ k => ∀ b, Sends P n (k b)
  | n, .emit e k =>
    match e with
    | .sent p => P p ∧ 1 ≤ n ∧ Sends P (n - 1) k
    | _ => Sends P n k

theorem Sends.inform {P : Payload → Prop} {n : Nat} {k : Prog} (env : Bool) (h : Sends P n k) : Sends P n (informUserOfTelemetryIfNeeded env k) := by
  unfold informUserOfTelemetryIfNeeded readTelemetryStatus
  split
  · exact h
  · intro st
    cases st with
    | notInformed => intro _; exact h
    | failed => intro _; exact h
    | enabled => exact h
    | disabled => exact h

theorem Sends.help (P : Payload → Prop) (n : Nat) (env : Bool) (m : Nat) : Sends P n (help env m) := by
  induction m with
  | zero => trivial
  | succ m ih => exact Sends.inform env ih

theorem Sends.cmd {P : Payload → Prop} {n : Nat} (env : Bool) (f : Flags) {k : Prog} (h : Sends P n k) : Sends P n (telemetryCmd env f k) := by
  unfold telemetryCmd
  split
  · exact h
  · split
    · intro b; cases b <;> exact h
    · split
      · intro b; cases b <;> exact h
      · unfold showTelemetryStatus readTelemetryStatus
        split
        · exact h
        · intro st
          cases st with
          | notInformed => intro _; exact h
          | failed => exact h
          | enabled => exact h
          | disabled => exact h

theorem Sends.prog (v : Invocation) : Sends (fun p => v.env = false ∧ v.name ≠ "alda" ∧ v.prerun = true ∧ p = ⟨v.os, v.arch, v.version, v.name⟩) 1 v.prog := by
  unfold Invocation.prog
  split
  next hp =>
    have rest : ∀ P n, Sends P n (match v.flags with | some f => telemetryCmd v.env f (Telemetry.help v.env v.helps) | none => Telemetry.help v.env v.helps) := by
      intro P n
      cases v.flags with
      | none => exact Sends.help ..
      | some f => exact Sends.cmd _ _ (Sends.help ..)
    refine Sends.inform _ ?_
    unfold sendTelemetry
    split
    · exact rest _ _
    next hn =>
      unfold readTelemetryStatus
      split
      · exact rest _ _
      next he =>
        intro st
        have he : v.env = false := by simpa using he
        cases st with
        | notInformed => exact ⟨⟨he, hn, hp, rfl⟩, Nat.le_refl _, rest _ _⟩
        | enabled => exact ⟨⟨he, hn, hp, rfl⟩, Nat.le_refl _, rest _ _⟩
        | failed => exact rest _ _
        | disabled => exact rest _ _
  · exact Sends.help ..

/-- How often the process has sent telemetry. -/
def sentBy (i : Nat) (log : List (Nat × Event)) : List Payload := log.filterMap fun x => match x with
  | (j, .sent p) => if j = i then some p else none
  | _ => none

theorem sentBy_append (i : Nat) (a b : List (Nat × Event)) : sentBy i (a ++ b) = sentBy i a ++ sentBy i b := by simp [sentBy]

theorem sends_run {P : Nat → Payload → Prop} (ss : List Step) : ∀ w : World, (∀ i, (∃ p, w.procs[i]? = some p ∧ ∃ n, n + (sentBy i w.log).length ≤ 1 ∧ Sends (P i) n p) ∨ (w.procs[i]? = none ∧ sentBy i w.log = [])) →
    (∀ i, ∀ p ∈ sentBy i w.log, P i p) → ∀ i, (sentBy i (w.run ss).log).length ≤ 1 ∧ ∀ p ∈ sentBy i (w.run ss).log, P i p := by
  induction ss with
  | nil =>
    intro w h1 h2 i
    refine ⟨?_, h2 i⟩
    rcases h1 i with ⟨p, _, n, hn, _⟩ | ⟨_, h⟩
    · show (sentBy i w.log).length ≤ 1; omega
    · show (sentBy i w.log).length ≤ 1; simp [h]
  | cons s ss ih =>
    intro w h1 h2
    rw [tel_run_cons]
    have key : ∀ (q : Prog) (p : Prog), w.procs[s.proc]? = some p → (∀ n, Sends (P s.proc) n p → Sends (P s.proc) n q) → ∀ w' : World, w'.procs = w.procs.set s.proc q → w'.log = w.log →
        ∀ i, (sentBy i (w'.run ss).log).length ≤ 1 ∧ ∀ p ∈ sentBy i (w'.run ss).log, P i p := by
      intro q p hp hq w' hw' hl'
      refine ih w' ?_ (by rw [hl']; exact h2)
      intro i
      rw [hw', hl']
      by_cases hi : s.proc = i
      · subst hi
        rcases h1 s.proc with ⟨p', hp', n, hn, hs⟩ | ⟨h, _⟩
        · rw [hp] at hp'
          cases hp'
          have hlt := (List.getElem?_eq_some_iff.1 hp).1
          exact .inl ⟨q, by simp [hlt], n, hn, hq n hs⟩
        · rw [hp] at h; cases h
      · rw [List.getElem?_set_ne hi]
        exact h1 i
    unfold World.step
    cases hp : w.procs[s.proc]? with
    | none => exact ih w h1 h2
    | some p =>
      cases p with
      | done => exact ih w h1 h2
      | read k => exact key _ _ hp (fun n h => h _) _ rfl rfl
      | create c k =>
        simp only
        split
        · exact key _ _ hp (fun n h => h _) _ rfl rfl
        · exact key (.fill c k) _ hp (fun n h => h) _ rfl rfl
      | fill c k =>
        simp only
        split <;> exact key _ _ hp (fun n h => h _) _ rfl rfl
      | emit e k =>
        simp only
        refine ih _ ?_ ?_
        · intro i
          simp only [sentBy_append]
          by_cases hi : s.proc = i
          · subst hi
            rcases h1 s.proc with ⟨p', hp', n, hn, hs⟩ | ⟨h, _⟩
            · rw [hp] at hp'
              cases hp'
              have hlt := (List.getElem?_eq_some_iff.1 hp).1
              left
              cases e with
              | sent pl =>
                refine ⟨k, by simp [hlt], n - 1, ?_, hs.2.2⟩
                have : (sentBy s.proc [(s.proc, Event.sent pl)]).length = 1 := by simp [sentBy]
                rw [List.length_append, this]
                have := hs.2.1
                omega
              | notice => exact ⟨k, by simp [hlt], n, by simpa [sentBy] using hn, hs⟩
              | report b => exact ⟨k, by simp [hlt], n, by simpa [sentBy] using hn, hs⟩
            · rw [hp] at h; cases h
          · rw [List.getElem?_set_ne hi]
            have : sentBy i [(s.proc, e)] = [] := by cases e <;> simp [sentBy, hi]
            rw [this, List.append_nil]
            exact h1 i
        · intro i pl hpl
          simp only [sentBy_append, List.mem_append] at hpl
          rcases hpl with hpl | hpl
          · exact h2 i pl hpl
          · cases e with
            | sent p' =>
              by_cases hi : s.proc = i
              · subst hi
                have hpl : pl = p' := by simpa [sentBy] using hpl
                subst hpl
                rcases h1 s.proc with ⟨p', hp', n, hn, hs⟩ | ⟨h, _⟩
                · rw [hp] at hp'
                  cases hp'
                  exact hs.1
                · rw [hp] at h; cases h
              · simp [sentBy, hi] at hpl
            | notice => simp [sentBy] at hpl
            | report b => simp [sentBy] at hpl

/-- C68: one command sends telemetry at most once, not at all with `ALDA_DISABLE_TELEMETRY=yes`, for help texts, or for `alda` without a command; what is sent is the operating system,
the architecture, the version and the name of the command, nothing else. -/
theorem c68_payload (file : Option Content) (vs : List Invocation) (ss : List Step) (i : Nat) :
    let sent := sentBy i ((start file vs).run ss).log
    sent.length ≤ 1 ∧ ∀ p ∈ sent, ∃ v, vs[i]? = some v ∧ v.env = false ∧ v.name ≠ "alda" ∧ v.prerun = true ∧ p = ⟨v.os, v.arch, v.version, v.name⟩ := by
  refine sends_run (P := fun i p => ∃ v, vs[i]? = some v ∧ v.env = false ∧ v.name ≠ "alda" ∧ v.prerun = true ∧ p = ⟨v.os, v.arch, v.version, v.name⟩) ss _ ?_ (by intro i p hp; simp [start, sentBy] at hp) i
  intro i
  cases hv : vs[i]? with
  | none => exact .inr ⟨by simp [start, hv], rfl⟩
  | some v =>
    refine .inl ⟨v.prog, by simp [start, hv], 1, by simp [start, sentBy], ?_⟩
    have mono : ∀ (P Q : Payload → Prop), (∀ p, P p → Q p) → ∀ p n, Sends P n p → Sends Q n p := by
      intro P Q hPQ p
      induction p with
      | done => intro n _; trivial
      | read k ih => intro n h st; exact ih st n (h st)
      | create c k ih => intro n h b; exact ih b n (h b)
      | fill c k ih => intro n h b; exact ih b n (h b)
      | emit e k ih =>
        intro n h
        cases e with
        | sent p => exact ⟨hPQ _ h.1, h.2.1, ih _ h.2.2⟩
        | notice => exact ih _ h
        | report b => exact ih _ h
    exact mono _ _ (fun p hp => ⟨v, rfl, hp⟩) _ _ (Sends.prog v)

/-! ### The notice -/

/-- As long as no notice has been shown, the program neither enables telemetry nor sends any. `seen`: there is the file. -/
def Careful : Bool → Prog → Prop
  | _, .done => True
  | seen, .read k => (seen = false → Careful false (k .notInformed)) ∧ Careful true (k .disabled) ∧ Careful seen (k .failed)
  | seen, .create c k => c ≠ .enabled ∧ Careful seen (k false) ∧ Careful true (k true) ∧ Careful true (k false)
  | _, .fill c k => c ≠ .enabled ∧ Careful true (k true) ∧ Careful true (k false)
  | seen, .emit e k =>
    match e with
    | .notice => True
    | .sent _ => False
    | .report _ => Careful seen k

theorem Careful.mono {p : Prog} : ∀ {b : Bool}, Careful b p → Careful true p := by
  induction p with
  | done => intro _ _; trivial
  | read k ih => intro b h; exact ⟨by simp, h.2.1, ih _ h.2.2⟩
  | create c k ih => intro b h; exact ⟨h.1, ih _ h.2.1, h.2.2⟩
  | fill c k ih => intro b h; exact h
  | emit e k ih =>
    intro b h
    cases e with
    | notice => trivial
    | sent p => exact h
    | report r => exact ih h

theorem Careful.inform {b : Bool} {env : Bool} {k : Prog} (h : Careful true k) (h' : env = true → Careful b k) : Careful b (informUserOfTelemetryIfNeeded env k) := by
  unfold informUserOfTelemetryIfNeeded readTelemetryStatus
  split
  next he => exact h' he
  · exact ⟨fun _ => trivial, h, trivial⟩

theorem Careful.help (b env : Bool) (n : Nat) : Careful b (help env n) := by
  induction n generalizing b with
  | zero => trivial
  | succ n ih => exact Careful.inform (ih true) (fun _ => ih b)

theorem Careful.prog {v : Invocation} (hv : ¬ v.Enables) : Careful false v.prog := by
  unfold Invocation.prog
  split
  next hp =>
    have rest : ∀ b, Careful b (match v.flags with | some f => telemetryCmd v.env f (Telemetry.help v.env v.helps) | none => Telemetry.help v.env v.helps) := by
      intro b
      cases hf : v.flags with
      | none => exact Careful.help ..
      | some f =>
        have he : f.enable = false := by
          cases he : f.enable with
          | false => rfl
          | true => exact absurd ⟨f, hf, he⟩ hv
        simp only [telemetryCmd, he, Bool.false_and, Bool.false_eq_true, if_false]
        split
        · exact ⟨by simp, Careful.help .., Careful.help .., Careful.help ..⟩
        · unfold showTelemetryStatus readTelemetryStatus
          split
          · exact Careful.help ..
          · exact ⟨fun _ => trivial, Careful.help .., Careful.help ..⟩
    have send : ∀ b, (b = false → v.env = true) → Careful b (sendTelemetry v.os v.arch v.version v.env v.name
        (match v.flags with | some f => telemetryCmd v.env f (Telemetry.help v.env v.helps) | none => Telemetry.help v.env v.helps)) := by
      intro b hb
      unfold sendTelemetry
      split
      · exact rest b
      · unfold readTelemetryStatus
        split
        · exact rest b
        next he =>
          refine ⟨fun h => absurd (hb h) he, rest _, rest _⟩
    exact Careful.inform (send true (by simp)) (fun he => send false (fun _ => he))
  · exact Careful.help ..

/-- The order of what has happened: before telemetry is sent for the first time, a notice is shown. -/
def NoticeFirst (log : List (Nat × Event)) : Prop := ∀ pre i p post, log = pre ++ (i, .sent p) :: post → ∃ j, (j, Event.notice) ∈ pre

theorem careful_run (ss : List Step) : ∀ w : World, ((∃ j, (j, Event.notice) ∈ w.log) ∨
    (w.file ≠ some .enabled ∧ (∀ (i : Nat) p, w.procs[i]? = some p → ∃ b, (b = true → w.file ≠ none) ∧ Careful b p) ∧ ∀ x ∈ w.log, ∀ p, x.2 ≠ .sent p)) → NoticeFirst w.log → NoticeFirst (w.run ss).log := by
  induction ss with
  | nil => intro w _ h; exact h
  | cons s ss ih =>
    intro w h hn
    rw [tel_run_cons]
    have hlog : ∃ new, (w.step s).log = w.log ++ new := by
      unfold World.step
      split
      · exact ⟨[], by simp⟩
      · exact ⟨[], by simp⟩
      · exact ⟨[], by simp⟩
      · split <;> exact ⟨[], by simp⟩
      · split <;> exact ⟨[], by simp⟩
      · exact ⟨_, rfl⟩
    rcases h with ⟨j, hj⟩ | ⟨h1, h2, h3⟩
    · obtain ⟨new, hnew⟩ := hlog
      refine ih _ (.inl ⟨j, by rw [hnew]; exact List.mem_append_left _ hj⟩) ?_
      rw [hnew]
      intro pre i p post he
      rcases List.append_eq_append_iff.1 he with ⟨a, h4, h5⟩ | ⟨a, h4, h5⟩
      · exact ⟨j, by rw [h4]; exact List.mem_append_left _ hj⟩
      · cases a with
        | nil => rw [List.append_nil] at h4; exact ⟨j, by rw [← h4]; exact hj⟩
        | cons x a =>
          rw [List.cons_append] at h5
          injection h5 with h6 h7
          subst h6
          exact hn pre i p a h4
    · unfold World.step
      cases hp : w.procs[s.proc]? with
      | none => exact ih w (.inr ⟨h1, h2, h3⟩) hn
      | some p =>
        obtain ⟨b, hb, hc⟩ := h2 _ _ hp
        cases p with
        | done => exact ih w (.inr ⟨h1, h2, h3⟩) hn
        | read k =>
          refine ih _ (.inr ⟨h1, procs_step (I := fun _ p => ∃ b, (b = true → w.file ≠ none) ∧ Careful b p) h2 ?_, h3⟩) hn
          match hf : w.file with
          | none =>
            have : b = false := by
              cases b with
              | false => rfl
              | true => exact absurd hf (hb rfl)
            exact ⟨false, by simp, by simpa [statusOf] using hc.1 this⟩
          | some .enabled => exact absurd hf h1
          | some .disabled =>
            refine ⟨true, by simp, ?_⟩
            cases hrf : s.readFails with
            | true => simpa [statusOf] using Careful.mono hc.2.2
            | false => simpa [statusOf] using hc.2.1
          | some .other =>
            refine ⟨true, by simp, ?_⟩
            cases hrf : s.readFails <;> simpa [statusOf] using Careful.mono hc.2.2
        | create c k =>
          simp only
          split
          · exact ih _ (.inr ⟨h1, procs_step (I := fun _ p => ∃ b, (b = true → w.file ≠ none) ∧ Careful b p) h2 ⟨b, hb, hc.2.1⟩, h3⟩) hn
          · refine ih _ (.inr ⟨by simp, procs_step (I := fun _ p => ∃ b, (b = true → some Content.other ≠ none) ∧ Careful b p) ?_ ⟨true, by simp, hc.1, hc.2.2⟩, h3⟩) hn
            intro i p hp
            obtain ⟨b, _, h⟩ := h2 i p hp
            exact ⟨b, by simp, h⟩
        | fill c k =>
          have all : ∀ (f : Option Content) q, f ≠ some .enabled → f ≠ none → Careful true q → NoticeFirst (({ w with file := f, procs := w.procs.set s.proc q } : World).run ss).log := by
            intro f q hf hf' hq
            refine ih _ (.inr ⟨hf, procs_step (I := fun _ p => ∃ b, (b = true → f ≠ none) ∧ Careful b p) ?_ ⟨true, fun _ => hf', hq⟩, h3⟩) hn
            intro i p hp
            obtain ⟨b, _, h⟩ := h2 i p hp
            exact ⟨b, fun _ => hf', h⟩
          have hce : (some c : Option Content) ≠ some .enabled := fun h => hc.1 (Option.some.inj h)
          simp only
          split
          · exact all _ _ hce (by simp) hc.2.1
          next a _ => exact all _ _ (by cases a <;> simp [hc.1]) (by simp) hc.2.2
        | emit e k =>
          have nf : (∀ p, e ≠ .sent p) → NoticeFirst (w.log ++ [(s.proc, e)]) := by
            intro he pre i p post h
            have hm : (i, Event.sent p) ∈ w.log ++ [(s.proc, e)] := by rw [h]; simp
            simp only [List.mem_append, List.mem_singleton, Prod.mk.injEq] at hm
            rcases hm with hm | ⟨_, hm⟩
            · exact absurd rfl (h3 _ hm p)
            · exact absurd hm.symm (he p)
          cases e with
          | sent p => exact hc.elim
          | notice => exact ih _ (.inl ⟨s.proc, by simp⟩) (nf (by simp))
          | report r =>
            refine ih _ (.inr ⟨h1, procs_step (I := fun _ p => ∃ b, (b = true → w.file ≠ none) ∧ Careful b p) h2 ⟨b, hb, hc⟩, ?_⟩) (nf (by simp))
            intro x hx
            simp only [List.mem_append, List.mem_singleton] at hx
            rcases hx with hx | rfl
            · exact h3 x hx
            · simp

/-- C68: unless the user asks for telemetry (`alda telemetry --enable`), nothing is sent before the notice about telemetry has been shown, however many commands run at the same time and
whatever goes wrong with the file. -/
theorem c68_informed {file : Option Content} (hf : file ≠ some .enabled) (vs : List Invocation) (hv : ∀ v ∈ vs, ¬ v.Enables) (ss : List Step) : NoticeFirst ((start file vs).run ss).log := by
  refine careful_run ss _ (.inr ⟨hf, ?_, by intro x hx; cases hx⟩) (by intro pre i p post h; simp [start] at h)
  intro i p hp
  obtain ⟨v, h1, rfl⟩ := start_procs hp
  exact ⟨false, by simp, Careful.prog (hv v (List.mem_of_getElem? h1))⟩

/-! ### Witnesses -/

/-- `alda telemetry --disable`. -/
def disabling : Invocation := { os := "linux", arch := "amd64", version := "2.3.1", name := "telemetry", arguments := ["--disable"], flags := some { disable := true } }
/-- `alda play -f secret.alda`. -/
def playing : Invocation := { os := "linux", arch := "amd64", version := "2.3.1", name := "play", arguments := ["-f", "secret.alda"] }

/-- C68 is false if the file that says `disabled` cannot be read for a moment: telemetry is enabled, and the next command sends. -/
theorem c68_read_witness : ∃ ss, (∀ s ∈ ss, s.createFails = false ∧ s.fillFails = none) ∧ ((start (some .disabled) [playing, playing]).run ss).file = some .enabled ∧
    (1, Event.sent ⟨"linux", "amd64", "2.3.1", "play"⟩) ∈ ((start (some .disabled) [playing, playing]).run ss).log :=
  ⟨[⟨0, true, false, none⟩, ⟨0, false, false, none⟩, ⟨0, false, false, none⟩, ⟨0, false, false, none⟩, ⟨1, false, false, none⟩, ⟨1, false, false, none⟩, ⟨1, false, false, none⟩],
    by decide +kernel, by decide +kernel, by decide +kernel⟩

/-- C68 is false if a command runs while `alda telemetry --disable` writes the file: it finds an empty file, and enables telemetry, although the user is told that it is disabled. -/
theorem c68_race_witness : ∃ ss, Fine ss ∧ let w := (start (some .enabled) [disabling, playing]).run ss
    (0, Event.report false) ∈ w.log ∧ w.file = some .enabled :=
  ⟨[0, 0, 0, 0, 1, 1, 1, 0, 0, 1].map fun i => ⟨i, false, false, none⟩, by unfold Fine; decide +kernel, by decide +kernel⟩

/-- C68 is false of the first command of all: `alda telemetry --disable` enables telemetry and sends a request before it disables it. -/
theorem c68_first_witness : ∃ ss events p, Fine ss ∧ Alone none disabling ss (some .disabled) events ∧ events = [.notice, .sent p, .report false] :=
  ⟨List.replicate 9 ⟨0, false, false, none⟩, _, _, by unfold Fine; decide +kernel, ⟨rfl, rfl, rfl⟩, rfl⟩

/-- The hypotheses of `c68_disabled_partial` can be met: telemetry is disabled; then two commands run at the same time. -/
example : ∃ ss events, Alone (some .enabled) disabling ss (some .disabled) events ∧ Readable ss ∧ Event.report false ∈ events ∧ ∀ v ∈ [playing, playing], ¬ v.Chooses :=
  ⟨List.replicate 9 ⟨0, false, false, none⟩, _, ⟨rfl, rfl, rfl⟩, by unfold Readable; decide +kernel, by decide +kernel, by rintro v hv ⟨f, hf, _⟩; simp at hv; subst hv; simp [playing] at hf⟩

/-- The hypotheses of `c68_status` can be met with telemetry being enabled. -/
example : ∃ ss events ss' events', Alone none { disabling with flags := some {} } ss (some .enabled) events ∧ Event.report true ∈ events ∧ Alone (some .enabled) playing ss' (some .enabled) events' :=
  ⟨List.replicate 9 ⟨0, false, false, none⟩, _, List.replicate 5 ⟨0, false, false, none⟩, _, ⟨rfl, rfl, rfl⟩, by decide +kernel, ⟨rfl, rfl, rfl⟩⟩

end Telemetry
end Alda
