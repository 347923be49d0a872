import Verif.System.StateFiles
/-!
# C72: `alda ps` lists the processes that run

As long as every process touches its file within two minutes and no id is used again while there is a file with it, a process that runs has its file (`c72_kept_iff`, `c72_kept_partial`), and
is listed unless its file is read while it is written (`c72_listed_partial`).  Whatever is listed was the state of a process that ran at most two minutes before the command
(`c72_recent`), and no id is listed twice (`c72_once`).
-/
namespace Alda
namespace Ps

section
variable {limit : Nat} {reuse : Bool}

theorem Steps.trans {w w1 w2 : World} (h : Steps limit reuse w w1) (h' : Steps limit reuse w1 w2) : Steps limit reuse w w2 := by
  induction h' with
  | refl => exact h
  | tail _ hs ih => exact .tail ih hs

theorem Steps.one {w w1 : World} (h : Step limit reuse w w1) : Steps limit reuse w w1 := .tail .refl h

theorem set_same {α : Type} (f : Path → α) (p : Path) (x : α) : set f p x p = x := by simp [set]

theorem set_other {α : Type} (f : Path → α) {p q : Path} (x : α) (h : q ≠ p) : set f p x q = f q := by simp [set, h]

/-- What is in the file of a process that runs. -/
def Match (pr : Proc) (f : File) : Prop := f.content = (if pr.writing then .empty else .json pr.record) ∧ pr.touched ≤ f.mtime

/-- The times are in the past, and files match their processes. -/
structure Sound (w : World) : Prop where
  mtime : ∀ p f, w.files p = some f → f.mtime ≤ w.now
  touched : ∀ p pr, w.procs p = some pr → pr.touched ≤ w.now
  same : ∀ p pr f, w.procs p = some pr → w.files p = some f → Match pr f

theorem Sound.step {w w' : World} (h : Sound w) (hs : Step limit reuse w w') : Sound w' := by
  have setp : ∀ (p : Path) (fo : Option File) (po : Option Proc), (∀ f, fo = some f → f.mtime ≤ w.now) → (∀ pr, po = some pr → pr.touched ≤ w.now) →
      (∀ pr f, po = some pr → fo = some f → Match pr f) → ∀ d, Sound { w with files := set w.files p fo, procs := set w.procs p po, doomed := d } := by
    intro p fo po h1 h2 h3 d
    refine ⟨fun q f hq => ?_, fun q pr hq => ?_, fun q pr f hq hf => ?_⟩
    · by_cases e : q = p
      · subst e; simp only [set_same] at hq; exact h1 f hq
      · simp only [set_other _ _ e] at hq; exact h.mtime q f hq
    · by_cases e : q = p
      · subst e; simp only [set_same] at hq; exact h2 pr hq
      · simp only [set_other _ _ e] at hq; exact h.touched q pr hq
    · by_cases e : q = p
      · subst e; simp only [set_same] at hq hf; exact h3 pr f hq hf
      · simp only [set_other _ _ e] at hq hf; exact h.same q pr f hq hf
  have setself : ∀ (p : Path) (fo : Option File), (∀ f, fo = some f → f.mtime ≤ w.now) → (∀ pr f, w.procs p = some pr → fo = some f → Match pr f) →
      ∀ d, Sound { w with files := set w.files p fo, doomed := d } := by
    intro p fo h1 h3 d
    have := setp p fo (w.procs p) h1 (fun pr hp => h.touched p pr hp) h3 d
    have e : set w.procs p (w.procs p) = w.procs := by
      funext q; by_cases e : q = p
      · subst e; rw [set_same]
      · rw [set_other _ _ e]
    rw [e] at this
    exact this
  cases hs with
  | wait ms _ => exact ⟨fun p f hf => Nat.le_trans (h.mtime p f hf) (Nat.le_add_right _ _), fun p pr hp => Nat.le_trans (h.touched p pr hp) (Nat.le_add_right _ _), h.same⟩
  | begin p r _ _ =>
    refine setp p _ _ (fun f hf => ?_) (fun pr hp => ?_) (fun pr f hp hf => ?_) _
    · cases hf; exact Nat.le_refl _
    · cases hp; exact Nat.le_refl _
    · cases hf; cases hp; exact ⟨rfl, Nat.le_refl _⟩
  | touch p pr hp =>
    refine setp p _ _ (fun f hf => ?_) (fun pr hp => ?_) (fun pr' f hp' hf => ?_) _
    · cases hx : w.files p with
      | none => rw [hx] at hf; cases hf
      | some f0 => rw [hx] at hf; cases hf; exact Nat.le_refl _
    · cases hp; exact Nat.le_refl _
    · cases hp'
      cases hx : w.files p with
      | none => rw [hx] at hf; cases hf
      | some f0 => rw [hx] at hf; cases hf; exact ⟨(h.same p pr f0 hp hx).1, Nat.le_refl _⟩
  | truncate p pr r hp hw =>
    refine setp p _ _ (fun f hf => ?_) (fun pr' hp' => ?_) (fun pr' f hp' hf => ?_) _
    · cases hf; exact Nat.le_refl _
    · cases hp'; exact h.touched p pr hp
    · cases hp'; cases hf; exact ⟨rfl, h.touched p pr hp⟩
  | fill p pr hp hw =>
    refine setp p _ _ (fun f hf => ?_) (fun pr' hp' => ?_) (fun pr' f hp' hf => ?_) _
    · cases hx : w.files p with
      | none => rw [hx] at hf; cases hf
      | some f0 => rw [hx] at hf; cases hf; exact Nat.le_refl _
    · cases hp'; exact h.touched p pr hp
    · cases hp'
      cases hx : w.files p with
      | none => rw [hx] at hf; cases hf
      | some f0 => rw [hx] at hf; cases hf; exact ⟨rfl, h.touched p pr hp⟩
  | finish p pr hp => exact setp p none none (fun _ hf => by cases hf) (fun _ hp => by cases hp) (fun _ _ _ hf => by cases hf) _
  | crash p pr hp =>
    refine ⟨h.mtime, fun q pr' hq => ?_, fun q pr' f hq hf => ?_⟩
    · by_cases e : q = p
      · subst e; simp only [crash, set_same] at hq; cases hq
      · simp only [crash, set_other _ _ e] at hq; exact h.touched q pr' hq
    · by_cases e : q = p
      · subst e; simp only [crash, set_same] at hq; cases hq
      · simp only [crash, set_other _ _ e] at hq; exact h.same q pr' f hq hf
  | look p f hf hst => exact ⟨h.mtime, h.touched, h.same⟩
  | remove p hp => exact setself p none (fun _ hf => by cases hf) (fun _ _ _ hf => by cases hf) _
  | forget p hp => exact ⟨h.mtime, h.touched, h.same⟩
  | drop p hp => exact setself p none (fun _ hf => by cases hf) (fun _ _ _ hf => by cases hf) _

theorem Sound.steps {w w' : World} (h : Sound w) (hs : Steps limit reuse w w') : Sound w' := by
  induction hs with
  | refl => exact h
  | tail _ hs ih => exact ih.step hs

theorem sound_start : Sound start := ⟨fun _ _ h => (by cases h), fun _ _ h => (by cases h), fun _ _ _ h => (by cases h)⟩

/-- The processes that run have their files, and nobody is about to remove them. -/
def Safe (limit : Nat) (w : World) : Prop := ∀ p pr, w.procs p = some pr → w.files p ≠ none ∧ p ∉ w.doomed ∧ w.now ≤ pr.touched + limit

theorem Safe.step (hl : limit ≤ 120000) {w w' : World} (so : Sound w) (h : Safe limit w) (hs : Step limit false w w') : Safe limit w' := by
  intro q pr' hq
  cases hs with
  | wait ms hw => exact ⟨(h q pr' hq).1, (h q pr' hq).2.1, hw q pr' hq⟩
  | begin p r hn hf =>
    by_cases e : q = p
    · subst e
      simp only [begin, set_same] at hq ⊢
      cases hq
      exact ⟨by simp, (hf rfl).2, Nat.le_add_right _ _⟩
    · simp only [begin, set_other _ _ e] at hq ⊢
      exact h q pr' hq
  | touch p pr hp =>
    by_cases e : q = p
    · subst e
      obtain ⟨h1, h2, _⟩ := h q pr hp
      simp only [touch, set_same] at hq ⊢
      cases hq
      refine ⟨?_, h2, Nat.le_add_right _ _⟩
      cases hx : w.files q with
      | none => exact absurd hx h1
      | some f => simp
    · simp only [touch, set_other _ _ e] at hq ⊢
      exact h q pr' hq
  | truncate p pr r hp hw =>
    by_cases e : q = p
    · subst e
      obtain ⟨_, h2, h3⟩ := h q pr hp
      simp only [truncate, set_same] at hq ⊢
      cases hq
      exact ⟨by simp, h2, h3⟩
    · simp only [truncate, set_other _ _ e] at hq ⊢
      exact h q pr' hq
  | fill p pr hp hw =>
    by_cases e : q = p
    · subst e
      obtain ⟨h1, h2, h3⟩ := h q pr hp
      simp only [fill, set_same] at hq ⊢
      cases hq
      refine ⟨?_, h2, h3⟩
      cases hx : w.files q with
      | none => exact absurd hx h1
      | some f => simp
    · simp only [fill, set_other _ _ e] at hq ⊢
      exact h q pr' hq
  | finish p pr hp =>
    by_cases e : q = p
    · subst e; simp only [finish, set_same] at hq; cases hq
    · simp only [finish, set_other _ _ e] at hq ⊢
      exact h q pr' hq
  | crash p pr hp =>
    by_cases e : q = p
    · subst e; simp only [crash, set_same] at hq; cases hq
    · simp only [crash, set_other _ _ e] at hq ⊢
      exact h q pr' hq
  | look p f hf hst =>
    obtain ⟨h1, h2, h3⟩ := h q pr' hq
    refine ⟨h1, ?_, h3⟩
    intro hm
    rcases List.mem_cons.1 hm with rfl | hm
    · have := (so.same q pr' f hq hf).2
      simp only [stale, decide_eq_true_eq] at hst
      omega
    · exact h2 hm
  | remove p hp =>
    obtain ⟨h1, h2, h3⟩ := h q pr' hq
    have e : q ≠ p := by rintro rfl; exact h2 hp
    simp only [remove, set_other _ _ e]
    exact ⟨h1, fun hm => h2 (List.mem_of_mem_erase hm), h3⟩
  | forget p hp =>
    obtain ⟨h1, h2, h3⟩ := h q pr' hq
    exact ⟨h1, fun hm => h2 (List.mem_of_mem_erase hm), h3⟩
  | drop p hp =>
    have e : q ≠ p := by rintro rfl; rw [hp] at hq; cases hq
    simp only [set_other _ _ e]
    exact h q pr' hq

theorem safe_steps (hl : limit ≤ 120000) {w w' : World} (so : Sound w) (h : Safe limit w) (hs : Steps limit false w w') : Safe limit w' := by
  induction hs with
  | refl => exact h
  | tail hs' hs ih => exact Safe.step hl (so.steps hs') ih hs

/-- C72: every process that runs has its file, and nothing is in it but its state. -/
def Kept (limit : Nat) (reuse : Bool) : Prop :=
  ∀ w, Steps limit reuse start w → ∀ p pr, w.procs p = some pr → ∃ f, w.files p = some f ∧ f.content = (if pr.writing then .empty else .json pr.record)

/-- C72: nobody removes the file of a process that runs, if it is touched within two minutes and ids are not used again. Missing: two minutes without a touch, and ids used again
(see the witnesses). -/
theorem c72_kept_partial (hl : limit ≤ 120000) : Kept limit false := by
  intro w hs p pr hp
  have so := sound_start.steps hs
  have h := safe_steps hl sound_start (fun _ _ h => by cases h) hs p pr hp
  cases hf : w.files p with
  | none => exact absurd hf h.1
  | some f => exact ⟨f, rfl, (so.same p pr f hp hf).1⟩

/-- The files were written by processes with these states. -/
theorem history {w : World} (hs : Steps limit reuse start w) : ∀ p f, w.files p = some f →
    ∃ w1 pr, Steps limit reuse start w1 ∧ Steps limit reuse w1 w ∧ w1.procs p = some pr ∧ w1.now = f.mtime ∧ ∀ r, f.content = .json r → pr.record = r := by
  induction hs with
  | refl => intro p f hf; cases hf
  | @tail w1 w2 hs1 hs ih =>
    have so := sound_start.steps hs1
    have old : ∀ p f, w1.files p = some f →
        ∃ w0 pr, Steps limit reuse start w0 ∧ Steps limit reuse w0 w2 ∧ w0.procs p = some pr ∧ w0.now = f.mtime ∧ ∀ r, f.content = .json r → pr.record = r := by
      intro p f hf
      obtain ⟨w0, pr, h1, h2, h3⟩ := ih p f hf
      exact ⟨w0, pr, h1, .tail h2 hs, h3⟩
    intro q f hf
    cases hs with
    | wait ms _ => exact old q f hf
    | begin p r hn hx =>
      by_cases e : q = p
      · subst e
        refine ⟨_, ⟨r, w1.now, true⟩, .tail hs1 (.begin q r hn hx), .refl, by simp only [begin, set_same], ?_, ?_⟩ <;> simp only [begin, set_same] at hf <;> cases hf
        · rfl
        · intro r h; cases h
      · simp only [begin, set_other _ _ e] at hf; exact old q f hf
    | touch p pr hp =>
      by_cases e : q = p
      · subst e
        simp only [touch, set_same] at hf
        cases hx : w1.files q with
        | none => rw [hx] at hf; cases hf
        | some f0 =>
          rw [hx] at hf; cases hf
          refine ⟨_, { pr with touched := w1.now }, .tail hs1 (.touch q pr hp), .refl, by simp only [touch, set_same], rfl, fun r hr => ?_⟩
          have := (so.same q pr f0 hp hx).1
          simp only at hr
          rw [hr] at this
          split at this
          · cases this
          · cases this; rfl
      · simp only [touch, set_other _ _ e] at hf; exact old q f hf
    | truncate p pr r hp hw =>
      by_cases e : q = p
      · subst e
        refine ⟨_, { pr with record := r, writing := true }, .tail hs1 (.truncate q pr r hp hw), .refl, by simp only [truncate, set_same], ?_, ?_⟩ <;> simp only [truncate, set_same] at hf <;> cases hf
        · rfl
        · intro r h; cases h
      · simp only [truncate, set_other _ _ e] at hf; exact old q f hf
    | fill p pr hp hw =>
      by_cases e : q = p
      · subst e
        simp only [fill, set_same] at hf
        cases hx : w1.files q with
        | none => rw [hx] at hf; cases hf
        | some f0 =>
          rw [hx] at hf; cases hf
          refine ⟨_, { pr with writing := false }, .tail hs1 (.fill q pr hp hw), .refl, by simp only [fill, set_same], rfl, fun r hr => ?_⟩
          cases hr; rfl
      · simp only [fill, set_other _ _ e] at hf; exact old q f hf
    | finish p pr hp =>
      by_cases e : q = p
      · subst e; simp only [finish, set_same] at hf; cases hf
      · simp only [finish, set_other _ _ e] at hf; exact old q f hf
    | crash p pr hp => exact old q f hf
    | look p f0 hf0 hst => exact old q f hf
    | remove p hp =>
      by_cases e : q = p
      · subst e; simp only [remove, set_same] at hf; cases hf
      · simp only [remove, set_other _ _ e] at hf; exact old q f hf
    | forget p hp => exact old q f hf
    | drop p hp =>
      by_cases e : q = p
      · subst e; simp only [set_same] at hf; cases hf
      · simp only [set_other _ _ e] at hf; exact old q f hf

/-- A file, if there is one, has been modified after two minutes before `t`. -/
def Recent (t : Nat) (p : Path) (w : World) : Prop := t ≤ w.now ∧ ∀ f, w.files p = some f → t ≤ f.mtime + 120000

theorem Recent.step {t : Nat} {q : Path} {w w' : World} (h : Recent t q w) (hs : Step limit reuse w w') : Recent t q w' := by
  have key : ∀ {p : Path} {fo : Option File} {f : File}, (∀ f, fo = some f → f.mtime = w.now) → set w.files p fo q = some f → t ≤ f.mtime + 120000 := by
    intro p fo f h1 hf
    by_cases e : q = p
    · subst e; rw [set_same] at hf; rw [h1 f hf]; exact Nat.le_trans h.1 (Nat.le_add_right _ _)
    · rw [set_other _ _ e] at hf; exact h.2 f hf
  cases hs with
  | wait ms _ => exact ⟨Nat.le_trans h.1 (Nat.le_add_right _ _), h.2⟩
  | begin p r _ _ => exact ⟨h.1, fun f hf => key (fun f hf => by cases hf; rfl) hf⟩
  | touch p pr hp =>
    refine ⟨h.1, fun f hf => key (fun f hf => ?_) hf⟩
    cases hx : w.files p with
    | none => rw [hx] at hf; cases hf
    | some f0 => rw [hx] at hf; cases hf; rfl
  | truncate p pr r hp hw => exact ⟨h.1, fun f hf => key (fun f hf => by cases hf; rfl) hf⟩
  | fill p pr hp hw =>
    refine ⟨h.1, fun f hf => key (fun f hf => ?_) hf⟩
    cases hx : w.files p with
    | none => rw [hx] at hf; cases hf
    | some f0 => rw [hx] at hf; cases hf; rfl
  | finish p pr hp => exact ⟨h.1, fun f hf => key (fun f hf => by cases hf) hf⟩
  | crash p pr hp => exact h
  | look p f0 hf0 hst => exact h
  | remove p hp => exact ⟨h.1, fun f hf => key (fun f hf => by cases hf) hf⟩
  | forget p hp => exact h
  | drop p hp => exact ⟨h.1, fun f hf => key (fun f hf => by cases hf) hf⟩

theorem Recent.steps {t : Nat} {q : Path} {w w' : World} (h : Recent t q w) (hs : Steps limit reuse w w') : Recent t q w' := by
  induction hs with
  | refl => exact h
  | tail _ hs ih => exact ih.step hs

theorem now_step {w w' : World} (hs : Step limit reuse w w') : w.now ≤ w'.now := by
  cases hs with
  | wait ms _ => exact Nat.le_add_right _ _
  | _ => exact Nat.le_refl _

theorem now_steps {w w' : World} (hs : Steps limit reuse w w') : w.now ≤ w'.now := by
  induction hs with
  | refl => exact Nat.le_refl _
  | tail _ hs ih => exact Nat.le_trans ih (now_step hs)

theorem Cleans.steps {w w' : World} {ps : List Path} (h : Cleans limit reuse w ps w') : Steps limit reuse w w' := by
  induction h with
  | nil => exact .refl
  | keep h1 _ _ ih => exact h1.trans ih
  | remove h1 hf hst h2 hm _ ih => exact h1.trans (((Steps.one (.look _ _ hf hst)).trans h2).trans ((Steps.one (.remove _ hm)).trans ih))

theorem Cleans.recent {t : Nat} {w w' : World} {ps : List Path} (h : Cleans limit reuse w ps w') : ∀ {q : Path}, t ≤ w.now → (Recent t q w ∨ q ∈ ps) → Recent t q w' := by
  induction h with
  | nil => intro q _ hq; exact hq.resolve_right (by simp)
  | @keep w w1 w2 p ps h1 hk _ ih =>
    intro q ht hq
    have ht1 := Nat.le_trans ht (now_steps h1)
    refine ih ht1 ?_
    rcases hq with hq | hq
    · exact .inl (hq.steps h1)
    · rcases List.mem_cons.1 hq with rfl | hq
      · refine .inl ⟨ht1, fun f hf => ?_⟩
        have := hk f hf
        simp only [stale, decide_eq_false_iff_not] at this
        omega
      · exact .inr hq
  | @remove w w1 w2 w3 p ps f h1 hf hst h2 hm _ ih =>
    intro q ht hq
    have hall : Steps limit reuse w (Ps.remove p w2) := h1.trans (((Steps.one (.look p f hf hst)).trans h2).trans (.one (.remove p hm)))
    have ht1 := Nat.le_trans ht (now_steps hall)
    refine ih ht1 ?_
    rcases hq with hq | hq
    · exact .inl (hq.steps hall)
    · rcases List.mem_cons.1 hq with rfl | hq
      · refine .inl ⟨ht1, fun f hf => ?_⟩
        simp only [Ps.remove, set_same] at hf
        cases hf
      · exact .inr hq

theorem Reads.moments {w w' : World} {ps : List Path} {ms : List (Path × World)} (h : Reads limit reuse w ps ms w') :
    ms.map (·.1) = ps ∧ Steps limit reuse w w' ∧ ∀ m ∈ ms, Steps limit reuse w m.2 ∧ Steps limit reuse m.2 w' := by
  induction h with
  | nil => exact ⟨rfl, .refl, fun _ h => by cases h⟩
  | cons h1 _ ih =>
    obtain ⟨g1, g2, g3⟩ := ih
    refine ⟨by simp [g1], h1.trans g2, fun m hm => ?_⟩
    rcases List.mem_cons.1 hm with rfl | hm
    · exact ⟨h1, g2⟩
    · exact ⟨h1.trans (g3 m hm).1, (g3 m hm).2⟩

theorem entry_mem {w : World} {p : Path} {x : String × Record} (h : x ∈ entry w p) : ∃ t, w.files p = some ⟨.json x.2, t⟩ ∧ x.1 = p.id := by
  unfold entry at h
  split at h
  · cases h
  · cases h
  · rename_i r t hf
    simp only [List.mem_singleton] at h
    subst h
    exact ⟨t, hf, rfl⟩

/-- C72: a process that runs when the directory is listed is in the list with its current state, unless it is just writing its file when that is read (or has ended). Missing: the time
while a file is written (see the witness), and what is missing in `c72_kept_partial`. -/
theorem c72_listed_partial (hl : limit ≤ 120000) {w w1 w2 : World} {d : Dir} {ms : List (Path × World)} (hs : Steps limit false start w) (h : Lists limit false w w1 d ms w2)
    {p : Path} (hd : p.dir = d) (hp : w1.procs p ≠ none) :
    ∃ w', (p, w') ∈ ms ∧ Steps limit false w1 w' ∧ Steps limit false w' w2 ∧ ∀ pr, w'.procs p = some pr → pr.writing = false → (p.id, pr.record) ∈ rows ms := by
  obtain ⟨all, w0, ps, _, h2, h3, ⟨_, h4⟩, h5⟩ := h
  obtain ⟨g1, _, g3⟩ := h5.moments
  have hs1 := (hs.trans h2.steps).trans h3
  cases hx : w1.procs p with
  | none => exact absurd hx hp
  | some pr0 =>
    obtain ⟨f, hf, _⟩ := c72_kept_partial hl w1 hs1 p pr0 hx
    have hmap : p ∈ ms.map (·.1) := by rw [g1, h4]; exact ⟨hd, by rw [hf]; simp⟩
    obtain ⟨⟨q, w'⟩, hm, e⟩ := List.mem_map.1 hmap
    simp only at e
    subst e
    refine ⟨w', hm, (g3 _ hm).1, (g3 _ hm).2, fun pr hpr hw => ?_⟩
    obtain ⟨f', hf', hc⟩ := c72_kept_partial hl w' (hs1.trans (g3 _ hm).1) q pr hpr
    refine List.mem_flatMap.2 ⟨(q, w'), hm, ?_⟩
    unfold entry
    obtain ⟨c, t⟩ := f'
    rw [hw] at hc
    cases hc
    simp only [hf']
    simp

/-- C72: whatever is listed is the state that a process with this id had not more than two minutes before the command was given; this needs none of the assumptions. -/
theorem c72_recent {w w1 w2 : World} {d : Dir} {ms : List (Path × World)} (hs : Steps limit reuse start w) (h : Lists limit reuse w w1 d ms w2) {x : String × Record} (hx : x ∈ rows ms) :
    ∃ p wt pr, p.dir = d ∧ p.id = x.1 ∧ Steps limit reuse start wt ∧ Steps limit reuse wt w2 ∧ wt.procs p = some pr ∧ pr.record = x.2 ∧ w.now ≤ wt.now + 120000 := by
  obtain ⟨all, w0, ps, h1, h2, h3, ⟨_, h4⟩, h5⟩ := h
  obtain ⟨g1, _, g3⟩ := h5.moments
  obtain ⟨⟨p, w'⟩, hm, he⟩ := List.mem_flatMap.1 hx
  obtain ⟨t, hf, hid⟩ := entry_mem he
  have hp : p.dir = d := ((h4 p).1 (by rw [← g1]; exact List.mem_map_of_mem hm)).1
  have hs1 := (hs.trans h2.steps).trans h3
  have hr : Recent w.now p w' := by
    refine ((h2.recent (Nat.le_refl _) ?_).steps h3).steps (g3 _ hm).1
    cases hx : w.files p with
    | none => exact .inl ⟨Nat.le_refl _, fun f hf => by rw [hx] at hf; cases hf⟩
    | some f => exact .inr (h1 p (by rw [hx]; simp))
  obtain ⟨wt, pr, k1, k2, k3, k4, k5⟩ := history (hs1.trans (g3 _ hm).1) p _ hf
  refine ⟨p, wt, pr, hp, hid.symm, k1, k2.trans (g3 _ hm).2, k3, k5 _ rfl, ?_⟩
  rw [k4]
  exact hr.2 _ hf

/-- C72: no id is listed twice. -/
theorem c72_once {w w1 w2 : World} {d : Dir} {ms : List (Path × World)} (h : Lists limit reuse w w1 d ms w2) : ((rows ms).map (·.1)).Nodup := by
  obtain ⟨all, w0, ps, _, _, _, ⟨h3, h4⟩, h5⟩ := h
  obtain ⟨g1, -, -⟩ := h5.moments
  have hd : ∀ p ∈ ms.map (·.1), p.dir = d := fun p hp => ((h4 p).1 (by rw [← g1]; exact hp)).1
  rw [← g1] at h3
  clear h4 h5 g1
  induction ms with
  | nil => simp [rows]
  | cons m ms ih =>
    simp only [List.map_cons, List.nodup_cons] at h3
    have ih := ih h3.2 (fun p hp => hd p (by simp only [List.map_cons, List.mem_cons]; exact .inr hp))
    simp only [rows] at ih
    simp only [rows, List.flatMap_cons, List.map_append]
    rw [List.nodup_append]
    refine ⟨?_, ih, ?_⟩
    · unfold entry
      split <;> simp
    · intro a ha b hb hab
      subst hab
      obtain ⟨x, hx, rfl⟩ := List.mem_map.1 ha
      obtain ⟨t, _, hid⟩ := entry_mem hx
      obtain ⟨y, hy, hxy⟩ := List.mem_map.1 hb
      obtain ⟨m', hm', hy⟩ := List.mem_flatMap.1 hy
      obtain ⟨t', _, hid'⟩ := entry_mem hy
      refine h3.1 ?_
      have e1 := hd m.1 (by simp)
      have e2 := hd m'.1 (by simp only [List.map_cons, List.mem_cons]; exact .inr (List.mem_map_of_mem hm'))
      have : m'.1 = m.1 := by
        obtain ⟨⟨d1, i1⟩, _⟩ := m
        obtain ⟨⟨d2, i2⟩, _⟩ := m'
        simp only at e1 e2 hid hid'
        rw [e1, e2, ← hid, ← hid', hxy]
      rw [← this]
      exact List.mem_map_of_mem hm'

end

/-- A player, and its state. -/
def abc : Path := ⟨.players "2.3.0", "abc"⟩

/-- Its state. -/
def ready : Record := ⟨27278, "ready", 300000, 4711⟩

/-- The player has begun. -/
def w1 : World := begin abc ready start

/-- The player has written its file. -/
def w2 : World := fill abc ⟨ready, 0, true⟩ w1

/-- A file that nobody has touched for more than two minutes is removed although its process runs, as after the computer has slept. -/
theorem c72_sleep_witness {limit : Nat} (hl : 120000 < limit) : ¬ Kept limit false := by
  intro h
  have s1 : Step limit false start w1 := .begin abc ready rfl (fun _ => ⟨rfl, by simp [start]⟩)
  have s2 : Step limit false w1 w2 := .fill abc ⟨ready, 0, true⟩ (by decide) rfl
  have hpr : ∀ p pr, w2.procs p = some pr → pr.touched = 0 := by
    intro p pr hp
    by_cases e : p = abc
    · subst e
      have : some pr = some (⟨ready, 0, false⟩ : Proc) := hp.symm.trans (by decide)
      cases this; rfl
    · simp only [w2, fill, w1, begin, set_other _ _ e, start] at hp; cases hp
  have s3 : Step limit false w2 { w2 with now := w2.now + 120001 } := .wait 120001 (fun p pr hp => by rw [hpr p pr hp]; show 0 + 120001 ≤ 0 + limit; omega)
  have s4 : Step limit false { w2 with now := w2.now + 120001 } { w2 with now := w2.now + 120001, doomed := [abc] } := .look abc ⟨.json ready, 0⟩ (by decide) (by decide)
  have s5 : Step limit false { w2 with now := w2.now + 120001, doomed := [abc] } (remove abc { w2 with now := w2.now + 120001, doomed := [abc] }) := .remove abc (by decide)
  obtain ⟨f, hf, _⟩ := h _ (.tail (.tail (.tail (.tail (.tail .refl s1) s2) s3) s4) s5) abc ⟨ready, 0, false⟩ (by decide)
  simp only [remove, set_same] at hf
  cases hf

/-- C72: exactly two minutes. -/
theorem c72_kept_iff (limit : Nat) : Kept limit false ↔ limit ≤ 120000 :=
  ⟨fun h => Nat.le_of_not_lt (fun hl => c72_sleep_witness hl h), fun h => c72_kept_partial h⟩

/-- Touching does not bring the file back. -/
theorem c72_touch_lost (p : Path) (pr : Proc) (w : World) (h : w.files p = none) : (touch p pr w).files p = none := by
  simp only [touch, set_same, h]; rfl

/-- With an id used again: somebody has found the file of a killed player to be old; a new player with that id begins; its file is removed. -/
theorem c72_reuse_witness : ¬ Kept 10000 true := by
  intro h
  have s1 : Step 10000 true start w1 := .begin abc ready rfl (fun h => by cases h)
  have s2 : Step 10000 true w1 w2 := .fill abc ⟨ready, 0, true⟩ (by decide) rfl
  have s3 : Step 10000 true w2 (crash abc w2) := .crash abc ⟨ready, 0, false⟩ (by decide)
  have hno : ∀ p, (crash abc w2).procs p = none := by
    intro p
    by_cases e : p = abc
    · subst e; simp only [crash, set_same]
    · simp only [crash, w2, fill, w1, begin, set_other _ _ e, start]
  have s4 : Step 10000 true (crash abc w2) { crash abc w2 with now := (crash abc w2).now + 120001 } := .wait 120001 (fun p pr hp => by rw [hno p] at hp; cases hp)
  have s5 : Step 10000 true { crash abc w2 with now := (crash abc w2).now + 120001 } { crash abc w2 with now := (crash abc w2).now + 120001, doomed := [abc] } :=
    .look abc ⟨.json ready, 0⟩ (by decide) (by decide)
  have s6 : Step 10000 true { crash abc w2 with now := (crash abc w2).now + 120001, doomed := [abc] } (begin abc ready { crash abc w2 with now := (crash abc w2).now + 120001, doomed := [abc] }) :=
    .begin abc ready (by decide) (fun h => by cases h)
  have s7 := Step.remove (limit := 10000) (reuse := true) (w := begin abc ready { crash abc w2 with now := (crash abc w2).now + 120001, doomed := [abc] }) abc (by decide)
  obtain ⟨f, hf, _⟩ := h _ (.tail (.tail (.tail (.tail (.tail (.tail (.tail .refl s1) s2) s3) s4) s5) s6) s7) abc ⟨ready, 120001, true⟩ (by decide)
  simp only [remove, set_same] at hf
  cases hf

theorem one_file {w : World} (h : ∀ p, w.files p ≠ none → p = abc) (h' : w.files abc ≠ none) : Names w abc.dir [abc] ∧ Walks w [abc] := by
  refine ⟨⟨by simp, fun p => ?_⟩, fun p hp => by rw [h p hp]; simp⟩
  simp only [List.mem_singleton]
  exact ⟨fun e => by subst e; exact ⟨rfl, h'⟩, fun hp => h p hp.2⟩

/-- A process that is writing its file is not listed, although it has been listed before. -/
theorem c72_writing_witness : ∃ w ms, Steps 10000 false start w ∧ Lists 10000 false w w abc.dir ms w ∧ w.procs abc ≠ none ∧ rows ms = [] := by
  have s1 : Step 10000 false start w1 := .begin abc ready rfl (fun _ => ⟨rfl, by simp [start]⟩)
  have s2 : Step 10000 false w1 w2 := .fill abc ⟨ready, 0, true⟩ (by decide) rfl
  have s3 : Step 10000 false w2 (truncate abc ⟨ready, 0, false⟩ { ready with state := "active" } w2) := .truncate abc ⟨ready, 0, false⟩ _ (by decide) rfl
  have hone := one_file (w := truncate abc ⟨ready, 0, false⟩ { ready with state := "active" } w2) (fun p hp => by
    by_cases e : p = abc
    · exact e
    · simp only [truncate, w2, fill, w1, begin, set_other _ _ e, start] at hp; exact absurd rfl hp) (by decide)
  refine ⟨_, [(abc, _)], .tail (.tail (.tail .refl s1) s2) s3, ⟨[abc], _, [abc], hone.2, .keep .refl (fun f hf => ?_) .nil, .refl, hone.1, .cons .refl .nil⟩, by decide, by decide⟩
  have : some f = some (⟨.empty, 0⟩ : File) := hf.symm.trans (by decide)
  cases this
  decide

/-- A player that runs is listed. -/
example : Steps 10000 false start w2 ∧ Lists 10000 false w2 w2 abc.dir [(abc, w2)] w2 ∧ rows [(abc, w2)] = [("abc", ready)] := by
  have hone := one_file (w := w2) (fun p hp => by
    by_cases e : p = abc
    · exact e
    · simp only [w2, fill, w1, begin, set_other _ _ e, start] at hp; exact absurd rfl hp) (by decide)
  refine ⟨.tail (.tail .refl (.begin abc ready rfl (fun _ => ⟨rfl, by simp [start]⟩))) (.fill abc ⟨ready, 0, true⟩ (by decide) rfl),
    ⟨[abc], _, [abc], hone.2, .keep .refl (fun f hf => ?_) .nil, .refl, hone.1, .cons .refl .nil⟩, by decide⟩
  have : some f = some (⟨.json ready, 0⟩ : File) := hf.symm.trans (by decide)
  cases this
  decide

end Ps
end Alda
