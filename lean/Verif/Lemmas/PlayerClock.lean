import Verif.Lemmas.PlayerTrack
import Verif.Spec.Player
/-!
The tempo itinerary of the player, and how accurately it places events in time.
-/
namespace Alda
namespace Player
open Spec

theorem javaRound_le (x : Rat) : (javaRound x : Rat) ≤ x + 1 / 2 := Rat.floor_le _
theorem lt_javaRound (x : Rat) : x - 1 / 2 < (javaRound x : Rat) := by
  have := Rat.lt_floor_add_one (x + 1 / 2)
  unfold javaRound; grind

theorem javaRound_mono {x y : Rat} (h : x ≤ y) : javaRound x ≤ javaRound y := Rat.floor_monotone (by grind)

theorem javaRound_int (n : Int) : javaRound (n : Rat) = n := by
  have h1 := javaRound_le (n : Rat)
  have h2 := lt_javaRound (n : Rat)
  have a : ((javaRound (n : Rat) : Int) : Rat) < ((n + 1 : Int) : Rat) := by rw [Rat.intCast_add]; grind
  have b : ((n - 1 : Int) : Rat) < ((javaRound (n : Rat) : Int) : Rat) := by rw [Rat.intCast_sub]; grind
  have a := Rat.intCast_lt_intCast.1 a
  have b := Rat.intCast_lt_intCast.1 b
  omega

/-- The tick of a time, counted from a tempo entry. -/
def tickFrom (p : TempoEntry) (ms : Int) : Int := javaRound (p.ticks + ((ms : Rat) - p.offsetMs) * (p.tempo * resolution) / 60000)

/-- The entries for tempo messages, after an entry. -/
def entries (p : TempoEntry) : List (Int × Rat) → List TempoEntry
  | [] => []
  | (o, b) :: ts => ⟨o, b, tickFrom p o⟩ :: entries ⟨o, b, tickFrom p o⟩ ts

/-- The last entry up to a time. -/
def lastVia (p : TempoEntry) : List (Int × Rat) → Int → TempoEntry
  | [], _ => p
  | (o, b) :: ts, ms => if o ≤ ms then lastVia ⟨o, b, tickFrom p o⟩ ts ms else p

/-- The tick of a time. -/
def tickVia (p : TempoEntry) (ts : List (Int × Rat)) (ms : Int) : Int := tickFrom (lastVia p ts ms) ms

/-- Offsets do not decrease, and tempos are positive. -/
def Rising (o : Int) : List (Int × Rat) → Prop
  | [] => True
  | (o', b) :: ts => o ≤ o' ∧ 0 < b ∧ Rising o' ts

/-- An entry that makes sense. -/
structure Sound1 (p : TempoEntry) : Prop where
  offset : 0 ≤ p.offsetMs
  tempo : 0 < p.tempo
  zero : p.offsetMs = 0 → p.ticks = 0

theorem tickFrom_self (p : TempoEntry) : tickFrom p p.offsetMs = p.ticks := by
  unfold tickFrom
  have : (p.ticks : Rat) + ((p.offsetMs : Rat) - p.offsetMs) * (p.tempo * resolution) / 60000 = (p.ticks : Rat) := by grind
  rw [this, javaRound_int]

theorem tickFrom_mono {p : TempoEntry} (h : 0 < p.tempo) {a b : Int} (hab : a ≤ b) : tickFrom p a ≤ tickFrom p b := by
  unfold tickFrom
  refine javaRound_mono ?_
  have hc : (a : Rat) ≤ b := Rat.intCast_le_intCast.2 hab
  have ht : (0 : Rat) ≤ p.tempo * resolution := by unfold resolution; grind
  have := Rat.mul_le_mul_of_nonneg_right (c := p.tempo * resolution) (a := (a : Rat) - p.offsetMs) (b := (b : Rat) - p.offsetMs) (by grind) ht
  have h2 := Rat.mul_le_mul_of_nonneg_right (c := 1 / 60000) this (by grind)
  rw [Rat.div_def, Rat.div_def]
  have e : (60000 : Rat)⁻¹ = 1 / 60000 := by grind
  rw [e]; grind

theorem tickFrom_ge {p : TempoEntry} (h : 0 < p.tempo) {ms : Int} (hm : p.offsetMs ≤ ms) : p.ticks ≤ tickFrom p ms := by
  have := tickFrom_mono h hm
  rwa [tickFrom_self] at this

theorem Sound1.next {p : TempoEntry} (h : Sound1 p) {o : Int} {b : Rat} (ho : p.offsetMs ≤ o) (hb : 0 < b) : Sound1 ⟨o, b, tickFrom p o⟩ where
  offset := by have := h.offset; show 0 ≤ o; omega
  tempo := hb
  zero := by
    intro h0
    simp only at h0 ⊢
    have hp : p.offsetMs = 0 := by have := h.offset; omega
    have := tickFrom_self p
    rw [hp, h.zero hp] at this
    rw [h0]; exact this

theorem lastVia_le {p : TempoEntry} {ts : List (Int × Rat)} {ms : Int} (hm : p.offsetMs ≤ ms) : (lastVia p ts ms).offsetMs ≤ ms := by
  induction ts generalizing p with
  | nil => exact hm
  | cons t ts ih =>
    obtain ⟨o, b⟩ := t
    simp only [lastVia]
    split
    · rename_i h; exact ih h
    · exact hm

theorem lastVia_sound {p : TempoEntry} {ts : List (Int × Rat)} {ms : Int} (h : Sound1 p) (hr : Rising p.offsetMs ts) : Sound1 (lastVia p ts ms) := by
  induction ts generalizing p with
  | nil => exact h
  | cons t ts ih =>
    obtain ⟨o, b⟩ := t
    obtain ⟨h1, h2, h3⟩ := hr
    simp only [lastVia]
    split
    · exact ih (h.next h1 h2) h3
    · exact h

theorem tickVia_ge {p : TempoEntry} {ts : List (Int × Rat)} {ms : Int} (h : Sound1 p) (hr : Rising p.offsetMs ts) (hm : p.offsetMs ≤ ms) : p.ticks ≤ tickVia p ts ms := by
  unfold tickVia
  induction ts generalizing p with
  | nil => exact tickFrom_ge h.tempo hm
  | cons t ts ih =>
    obtain ⟨o, b⟩ := t
    obtain ⟨h1, h2, h3⟩ := hr
    simp only [lastVia]
    split
    · rename_i ho
      have := ih (h.next h1 h2) h3 ho
      have h4 := tickFrom_ge h.tempo h1
      simp only at this
      omega
    · exact tickFrom_ge h.tempo hm

theorem tickVia_mono {p : TempoEntry} {ts : List (Int × Rat)} {a b : Int} (h : Sound1 p) (hr : Rising p.offsetMs ts) (ha : p.offsetMs ≤ a) (hab : a ≤ b) :
    tickVia p ts a ≤ tickVia p ts b := by
  unfold tickVia
  induction ts generalizing p with
  | nil => exact tickFrom_mono h.tempo hab
  | cons t ts ih =>
    obtain ⟨o, v⟩ := t
    obtain ⟨h1, h2, h3⟩ := hr
    simp only [lastVia]
    by_cases hoa : o ≤ a
    · rw [if_pos hoa, if_pos (by omega)]
      exact ih (h.next h1 h2) h3 hoa
    · rw [if_neg hoa]
      by_cases hob : o ≤ b
      · rw [if_pos hob]
        have e1 := tickFrom_mono h.tempo (a := a) (b := o) (by omega)
        have e2 := tickVia_ge (h.next h1 h2) h3 hob
        simp only [tickVia] at e2
        omega
      · rw [if_neg hob]; exact tickFrom_mono h.tempo hab

theorem javaRound_strict {x y : Rat} (h : x + 1 ≤ y) : javaRound x < javaRound y := by
  have h1 := javaRound_le x
  have h2 := lt_javaRound y
  exact Rat.intCast_lt_intCast.1 (by grind)

theorem tickFrom_strict {p : TempoEntry} {m d : Rat} (hm : 0 < m) (hp : m ≤ p.tempo) (hd : 60000 ≤ d * (m * 128)) {a b : Int} (hab : (a : Rat) + d ≤ b) :
    tickFrom p a < tickFrom p b := by
  unfold tickFrom
  refine javaRound_strict ?_
  have hd0 : 0 ≤ d := by
    apply Classical.byContradiction
    intro hn
    have := Rat.mul_le_mul_of_nonneg_right (a := d) (b := 0) (c := m * 128) (by grind) (by grind)
    grind
  have ht : m * 128 ≤ p.tempo * resolution := by unfold resolution; grind
  have h1 := Rat.mul_le_mul_of_nonneg_right (a := d) (b := (b : Rat) - a) (c := p.tempo * resolution) (by grind) (by grind)
  have h2 := Rat.mul_le_mul_of_nonneg_left (a := m * 128) (b := p.tempo * resolution) (c := d) ht hd0
  have e1 : (60000 : Rat)⁻¹ = 1 / 60000 := by grind
  rw [Rat.div_def, Rat.div_def, e1]
  grind

/-- Times that are far enough apart are at different ticks. -/
theorem tickVia_strict {m d : Rat} (hm : 0 < m) (hd : 60000 ≤ d * (m * 128)) {ts : List (Int × Rat)} : ∀ {p : TempoEntry} {a b : Int}, Sound1 p → Rising p.offsetMs ts →
    m ≤ p.tempo → (∀ t ∈ ts, m ≤ t.2) → p.offsetMs ≤ a → (a : Rat) + ((ts.length : Rat) + 1) * d ≤ b → tickVia p ts a < tickVia p ts b := by
  have hd0 : 0 ≤ d := by
    apply Classical.byContradiction
    intro hn
    have := Rat.mul_le_mul_of_nonneg_right (a := d) (b := 0) (c := m * 128) (by grind) (by grind)
    grind
  induction ts with
  | nil =>
    intro p a b _ _ hp _ _ hab
    refine tickFrom_strict (p := p) hm hp hd ?_
    simp only [List.length_nil] at hab
    grind
  | cons t ts ih =>
    intro p a b h hr hp ht ha hab
    obtain ⟨o, v⟩ := t
    obtain ⟨h1, h2, h3⟩ := hr
    have hv : m ≤ v := ht (o, v) (List.mem_cons_self ..)
    have ht' : ∀ t ∈ ts, m ≤ t.2 := fun t h => ht t (List.mem_cons_of_mem _ h)
    have hl : (((o, v) :: ts).length : Rat) = (ts.length : Rat) + 1 := by simp
    have hl0 : (0 : Rat) ≤ (ts.length : Rat) := by exact_mod_cast Nat.zero_le _
    have hmul : 0 ≤ (ts.length : Rat) * d := Rat.mul_nonneg hl0 hd0
    rw [hl] at hab
    have hlt : a ≤ b := Rat.intCast_le_intCast.1 (by grind)
    simp only [tickVia, lastVia] at ih ⊢
    by_cases hoa : o ≤ a
    · rw [if_pos hoa, if_pos (by omega)]
      exact ih (h.next h1 h2) h3 hv ht' hoa (by grind)
    · rw [if_neg hoa]
      by_cases hob : o ≤ b
      · rw [if_pos hob]
        by_cases hd1 : (a : Rat) + d ≤ o
        · have e1 := tickFrom_strict hm hp hd hd1
          have e2 := tickVia_ge (h.next h1 h2) h3 hob
          simp only [tickVia] at e2
          omega
        · have e1 := tickFrom_mono h.tempo (a := a) (b := o) (by omega)
          have e2 := ih (p := ⟨o, v, tickFrom p o⟩) (a := o) (b := b) (h.next h1 h2) h3 hv ht' (Int.le_refl _) (by grind)
          have e3 := tickVia_ge (p := ⟨o, v, tickFrom p o⟩) (ms := o) (h.next h1 h2) h3 (Int.le_refl _)
          simp only [tickVia] at e3
          omega
      · rw [if_neg hob]
        exact tickFrom_strict hm hp hd (by grind)

/-! ### The itinerary -/

theorem entries_takeWhile (p : TempoEntry) (ts : List (Int × Rat)) (ms : Int) :
    (p :: (entries p ts).takeWhile (fun x => decide ((x.offsetMs : Rat) ≤ (ms : Rat)))).getLast? = some (lastVia p ts ms) := by
  induction ts generalizing p with
  | nil => rfl
  | cons t ts ih =>
    obtain ⟨o, b⟩ := t
    simp only [entries, lastVia]
    by_cases h : o ≤ ms
    · rw [if_pos h, List.takeWhile_cons_of_pos (by simpa using Rat.intCast_le_intCast.2 h), List.getLast?_cons_cons]
      exact ih _
    · rw [if_neg h, List.takeWhile_cons_of_neg (by simpa [Rat.intCast_le_intCast] using h)]
      rfl

theorem takeWhile_all {α : Type} {P : α → Bool} {a b : List α} (h : ∀ x ∈ a, P x = true) : (a ++ b).takeWhile P = a ++ b.takeWhile P := by
  induction a with
  | nil => rfl
  | cons x a ih =>
    rw [List.cons_append, List.takeWhile_cons_of_pos (h x (List.mem_cons_self ..)), ih (fun y hy => h y (List.mem_cons_of_mem _ hy))]; rfl

theorem msToTicks_eq {pre : List TempoEntry} {p : TempoEntry} {ts : List (Int × Rat)} {ms : Int} (hp : ∀ x ∈ pre, x.offsetMs ≤ p.offsetMs) (h : Sound1 p)
    (hr : Rising p.offsetMs ts) (hm : p.offsetMs ≤ ms) : msToTicks (pre ++ p :: entries p ts) ms = some (tickVia p ts ms) := by
  unfold msToTicks
  by_cases h0 : ms = 0
  · subst h0
    have hl := lastVia_sound (ms := 0) h hr
    have hle := lastVia_le (ts := ts) hm
    have h0 : (lastVia p ts 0).offsetMs = 0 := by have := hl.offset; omega
    rw [if_pos (by rfl)]
    unfold tickVia
    have := tickFrom_self (lastVia p ts 0)
    rw [h0, hl.zero h0] at this
    rw [this]
  · rw [if_neg (by simpa using h0), takeWhile_all (by
      intro x hx
      have := hp x hx
      simp only [decide_eq_true_eq]
      exact Rat.intCast_le_intCast.2 (by omega)),
      List.takeWhile_cons_of_pos (by simpa using Rat.intCast_le_intCast.2 hm), List.getLast?_append]
    rw [entries_takeWhile]
    rfl

theorem addTempoEntry_last {l : List TempoEntry} {e : TempoEntry} (h : ∀ x ∈ l, x.offsetMs ≤ e.offsetMs) : addTempoEntry e l = l ++ [e] := by
  induction l with
  | nil => rfl
  | cons x xs ih =>
    simp only [addTempoEntry]
    rw [if_neg (by have := h x (List.mem_cons_self ..); omega), ih (fun y hy => h y (List.mem_cons_of_mem _ hy))]; rfl

theorem addEvent_last {l : List MidiEvent} {e : MidiEvent} (hl : InOrder l) (h : ∀ x ∈ l, x.tick ≤ e.tick) : addEvent e l = l ++ [e] := by
  rw [addEvent_eq hl]
  have h1 : l.filter (fun x => decide (x.tick ≤ e.tick)) = l := by rw [List.filter_eq_self]; intro a ha; simpa using h a ha
  have h2 : l.filter (fun x => decide (e.tick < x.tick)) = [] := by rw [List.filter_eq_nil_iff]; intro a ha; have := h a ha; simp; omega
  rw [h1, h2]

/-- The events for tempo entries. -/
def tempoEvents (es : List TempoEntry) : List MidiEvent := es.map (fun x => ⟨x.ticks, setTempoMessage x.tempo⟩)

theorem setTempos {ts : List (Int × Rat)} : ∀ {pre : List TempoEntry} {p : TempoEntry} {m : Engine}, m.itinerary = pre ++ [p] → (∀ x ∈ pre, x.offsetMs ≤ p.offsetMs) → Sound1 p →
    Rising p.offsetMs ts → InOrder m.track → (∀ x ∈ m.track, x.tick ≤ p.ticks) →
    eachOf (fun t m => Engine.setTempo t.1 t.2 m) ts m = ({ m with itinerary := pre ++ p :: entries p ts, track := m.track ++ tempoEvents (entries p ts) }, true) := by
  induction ts with
  | nil => intro pre p m hi _ _ _ _ _; simp [eachOf, entries, tempoEvents, ← hi]
  | cons t ts ih =>
    intro pre p m hi hp h hr ho hle
    obtain ⟨o, b⟩ := t
    have hr' := hr
    obtain ⟨h1, h2, h3⟩ := hr'
    have hms : msToTicks m.itinerary o = some (tickFrom p o) := by
      have := msToTicks_eq (ts := []) hp h trivial h1
      rw [hi]; exact this
    have hge := tickFrom_ge h.tempo h1
    have hs : Engine.setTempo o b m = some { m with itinerary := addTempoEntry ⟨o, b, tickFrom p o⟩ m.itinerary, track := addEvent ⟨tickFrom p o, setTempoMessage b⟩ m.track } := by
      simp only [Engine.setTempo, hms, Option.map_some]
    simp only [eachOf, hs]
    rw [ih (pre := pre ++ [p]) (p := ⟨o, b, tickFrom p o⟩)]
    · rw [addEvent_last ho (by intro x hx; have := hle x hx; show x.tick ≤ tickFrom p o; omega)]
      simp [entries, tempoEvents]
    · simp only
      rw [hi, addTempoEntry_last]
      intro x hx
      rcases List.mem_append.1 hx with hx | hx
      · have := hp x hx; show x.offsetMs ≤ o; omega
      · rw [List.mem_singleton] at hx; subst hx; exact h1
    · intro x hx
      rcases List.mem_append.1 hx with hx | hx
      · have := hp x hx; show x.offsetMs ≤ o; omega
      · rw [List.mem_singleton] at hx; subst hx; exact h1
    · exact h.next h1 h2
    · exact h3
    · exact addEvent_inOrder ho
    · intro x hx
      simp only at hx
      rw [addEvent_last ho (by intro x hx; have := hle x hx; show x.tick ≤ tickFrom p o; omega)] at hx
      rcases List.mem_append.1 hx with hx | hx
      · have := hle x hx; show x.tick ≤ tickFrom p o; omega
      · rw [List.mem_singleton] at hx; subst hx; exact Int.le_refl _

/-! ### The clock -/

/-- Whether an event sets the tempo. -/
def isTempo (e : MidiEvent) : Bool := match e.msg with
  | .setTempo _ => true
  | _ => false

theorem clockFrom_filter (l : List MidiEvent) : ∀ (a : Int) (u : Rat) (t : Int), clockFrom l a u t = clockFrom (l.filter isTempo) a u t := by
  induction l with
  | nil => intro a u t; rfl
  | cons e l ih =>
    intro a u t
    obtain ⟨k, m⟩ := e
    cases m with
    | setTempo v =>
      rw [List.filter_cons_of_pos (by rfl)]
      simp only [clockFrom, ih]
    | _ =>
      rw [List.filter_cons_of_neg (by simp [isTempo])]
      simp only [clockFrom, ih]

theorem clockFrom_self (l : List MidiEvent) : ∀ (a : Int) (u : Rat), (∀ x ∈ l, a ≤ x.tick) → clockFrom l a u a = 0 := by
  induction l with
  | nil => intro a u _; simp only [clockFrom]; grind
  | cons e l ih =>
    intro a u h
    obtain ⟨k, m⟩ := e
    have ih := ih a
    cases m with
    | setTempo v =>
      have hk : a ≤ k := h _ (List.mem_cons_self ..)
      simp only [clockFrom]
      split
      · have : k = a := by omega
        subst this
        rw [ih _ (fun x hx => h x (List.mem_cons_of_mem _ hx))]; grind
      · grind
    | _ => simp only [clockFrom]; exact ih _ (fun x hx => h x (List.mem_cons_of_mem _ hx))

theorem entries_ge {ts : List (Int × Rat)} : ∀ {p : TempoEntry}, Sound1 p → Rising p.offsetMs ts → ∀ x ∈ entries p ts, p.ticks ≤ x.ticks := by
  induction ts with
  | nil => intro p _ _ x hx; cases hx
  | cons t ts ih =>
    intro p h hr x hx
    obtain ⟨o, v⟩ := t
    obtain ⟨h1, h2, h3⟩ := hr
    have := tickFrom_ge h.tempo h1
    rcases List.mem_cons.1 hx with rfl | hx
    · exact this
    · have := ih (h.next h1 h2) h3 x hx
      simp only at this
      omega

/-- Microseconds for a quarter note, as the sequencer is told. -/
def uspq (b : Rat) : Int := javaRound (60000000 / b)

theorem div_le_of {m b : Rat} (hm : 0 < m) (hb : m ≤ b) {x : Rat} (hx : 0 ≤ x) : x / b ≤ x / m := by
  have hb0 : 0 < b := by grind
  have q : 0 < b⁻¹ := Rat.inv_pos.2 hb0
  have r : 0 < m⁻¹ := Rat.inv_pos.2 hm
  have e1 := Rat.mul_inv_cancel b (by grind)
  have e2 := Rat.mul_inv_cancel m (by grind)
  have h1 := Rat.mul_le_mul_of_nonneg_right (c := b⁻¹ * m⁻¹) hb (Rat.le_of_lt (Rat.mul_pos q r))
  have f1 : m * (b⁻¹ * m⁻¹) = b⁻¹ := by rw [Rat.mul_comm b⁻¹, ← Rat.mul_assoc, e2, Rat.one_mul]
  have f2 : b * (b⁻¹ * m⁻¹) = m⁻¹ := by rw [← Rat.mul_assoc, e1, Rat.one_mul]
  have h2 : b⁻¹ ≤ m⁻¹ := by rw [f1, f2] at h1; exact h1
  rw [Rat.div_def, Rat.div_def]
  exact Rat.mul_le_mul_of_nonneg_left h2 hx

theorem div_nonneg_of {m x : Rat} (hm : 0 < m) (hx : 0 ≤ x) : 0 ≤ x / m := by
  rw [Rat.div_def]
  exact Rat.mul_nonneg hx (Rat.le_of_lt (Rat.inv_pos.2 hm))

theorem uspq_range {b : Rat} (hb : 4 ≤ b) : 0 ≤ uspq b ∧ uspq b ≤ 15000000 := by
  have h1 := javaRound_le (60000000 / b)
  have h2 := lt_javaRound (60000000 / b)
  have h3 := div_le_of (m := 4) (b := b) (by grind) hb (x := 60000000) (by grind)
  have h4 : 0 ≤ 60000000 / b := div_nonneg_of (by grind) (by grind)
  constructor
  · have : (-1 : Int) < uspq b := Rat.intCast_lt_intCast.1 (by unfold uspq; grind)
    omega
  · have : uspq b < 15000001 := Rat.intCast_lt_intCast.1 (by unfold uspq; grind)
    omega

theorem setTempoMessage_eq {b : Rat} (hb : 4 ≤ b) : setTempoMessage b = .setTempo (uspq b) := by
  have h := uspq_range hb
  unfold setTempoMessage
  rw [if_neg (by grind)]
  simp only
  have e : javaRound (60000000 / b) = uspq b := rfl
  rw [e, if_neg (by omega), Int.emod_eq_of_lt h.1 (by omega)]

/-- The error of one part of the itinerary. -/
theorem segment {p : TempoEntry} {m : Rat} (hm : 0 < m) (hp : m ≤ p.tempo) {o : Int} (ho : p.ticks ≤ tickFrom p o) :
    ((tickFrom p o : Rat) - p.ticks) * uspq p.tempo / 128 - 1000 * ((o : Rat) - p.offsetMs) ≤ 234375 / m + ((tickFrom p o : Rat) - p.ticks) / 256 ∧
    1000 * ((o : Rat) - p.offsetMs) - ((tickFrom p o : Rat) - p.ticks) * uspq p.tempo / 128 ≤ 234375 / m + ((tickFrom p o : Rat) - p.ticks) / 256 := by
  have hb : 0 < p.tempo := by grind
  have ha := div_le_of hm hp (x := 234375) (by grind)
  have u1 := javaRound_le (60000000 / p.tempo)
  have u2 := lt_javaRound (60000000 / p.tempo)
  have t1 := javaRound_le (p.ticks + ((o : Rat) - p.offsetMs) * (p.tempo * resolution) / 60000)
  have t2 := lt_javaRound (p.ticks + ((o : Rat) - p.offsetMs) * (p.tempo * resolution) / 60000)
  have ho : (p.ticks : Rat) ≤ (tickFrom p o : Rat) := Rat.intCast_le_intCast.2 ho
  have et : (javaRound (p.ticks + ((o : Rat) - p.offsetMs) * (p.tempo * resolution) / 60000) : Rat) = (tickFrom p o : Rat) := rfl
  have eu : (javaRound (60000000 / p.tempo) : Rat) = (uspq p.tempo : Rat) := rfl
  rw [et] at t1 t2
  rw [eu] at u1 u2
  generalize (tickFrom p o : Rat) = T at *
  generalize (uspq p.tempo : Rat) = u at *
  generalize (p.ticks : Rat) = t0 at *
  generalize (o : Rat) - p.offsetMs = x at *
  generalize p.tempo = b at *
  have q : b * (1 / b) = 1 := by grind
  have q0 : 0 < 1 / b := by rw [Rat.lt_div_iff hb]; grind
  have e1 : 60000000 / b = 60000000 * (1 / b) := by grind
  have e2 : 234375 / b = 234375 * (1 / b) := by grind
  have e3 : x * (b * resolution) / 60000 = x * b * (128 / 60000) := by unfold resolution; grind
  rw [e1] at u1 u2
  rw [e2] at ha
  rw [e3] at t1 t2
  generalize 1 / b = r at *
  -- the ticks of the part, times the length of a quarter note
  have c1 : (T - t0) * u ≤ (T - t0) * (60000000 * r + 1 / 2) := Rat.mul_le_mul_of_nonneg_left u1 (by grind)
  have c2 : (T - t0) * (60000000 * r - 1 / 2) ≤ (T - t0) * u := Rat.mul_le_mul_of_nonneg_left (by grind) (by grind)
  have c3 : (T - t0) * r ≤ (x * b * (128 / 60000) + 1 / 2) * r := Rat.mul_le_mul_of_nonneg_right (by grind) (by grind)
  have c4 : (x * b * (128 / 60000) - 1 / 2) * r ≤ (T - t0) * r := Rat.mul_le_mul_of_nonneg_right (by grind) (by grind)
  have c5 : x * b * (128 / 60000) * r = x * (128 / 60000) := by grind
  constructor <;> grind

theorem clock_accurate {m : Rat} (hm : 0 < m) {ts : List (Int × Rat)} : ∀ {p : TempoEntry} {ms : Int}, Sound1 p → Rising p.offsetMs ts → m ≤ p.tempo →
    (∀ t ∈ ts, m ≤ t.2 ∧ 4 ≤ t.2) → p.offsetMs ≤ ms →
    let n : Rat := ((ts.filter (fun t => decide (t.1 ≤ ms))).length : Rat) + 1
    clockFrom (tempoEvents (entries p ts)) p.ticks (uspq p.tempo) (tickVia p ts ms) - 1000 * ((ms : Rat) - p.offsetMs) ≤ n * (234375 / m) + ((tickVia p ts ms : Rat) - p.ticks) / 256 ∧
    1000 * ((ms : Rat) - p.offsetMs) - clockFrom (tempoEvents (entries p ts)) p.ticks (uspq p.tempo) (tickVia p ts ms) ≤ n * (234375 / m) + ((tickVia p ts ms : Rat) - p.ticks) / 256 := by
  induction ts with
  | nil =>
    intro p ms h _ hp _ hms
    have := segment hm hp (tickFrom_ge h.tempo hms)
    simp only [entries, tempoEvents, List.map_nil, clockFrom, tickVia, lastVia, List.filter_nil, List.length_nil]
    constructor <;> grind
  | cons t ts ih =>
    intro p ms h hr hp ht hms
    obtain ⟨o, v⟩ := t
    have hr' := hr
    obtain ⟨h1, h2, h3⟩ := hr
    obtain ⟨hv, hv4⟩ := ht (o, v) (List.mem_cons_self ..)
    have ht' : ∀ t ∈ ts, m ≤ t.2 ∧ 4 ≤ t.2 := fun t h => ht t (List.mem_cons_of_mem _ h)
    have hgo := tickFrom_ge h.tempo h1
    simp only at hv hv4
    simp only [entries, tempoEvents, List.map_cons, clockFrom, setTempoMessage_eq hv4]
    by_cases hoa : o ≤ ms
    · have e1 : tickVia p ((o, v) :: ts) ms = tickVia ⟨o, v, tickFrom p o⟩ ts ms := by
        simp only [tickVia, lastVia, if_pos hoa]
      have hge := tickVia_ge (h.next h1 h2) h3 hoa
      simp only at hge
      rw [e1, if_pos hge, List.filter_cons_of_pos (by simpa using hoa)]
      obtain ⟨i1, i2⟩ := ih (h.next h1 h2) h3 hv ht' hoa
      obtain ⟨s1, s2⟩ := segment hm hp hgo
      simp only [tempoEvents] at i1 i2
      generalize clockFrom _ _ _ _ = C at *
      simp only [List.length_cons]
      generalize (ts.filter (fun t => decide (t.1 ≤ ms))).length = n at *
      have hn : ((n + 1 : Nat) : Rat) = (n : Rat) + 1 := by simp
      rw [hn]
      generalize 234375 / m = E at *
      constructor <;> grind
    · have e1 : tickVia p ((o, v) :: ts) ms = tickFrom p ms := by
        simp only [tickVia, lastVia, if_neg hoa]
      have hge := tickFrom_ge h.tempo hms
      have hmo := tickFrom_mono h.tempo (a := ms) (b := o) (by omega)
      rw [e1]
      obtain ⟨s1, s2⟩ := segment hm hp hge
      have hE : 0 ≤ 234375 / m := div_nonneg_of (by grind) (by grind)
      have hn0 : (0 : Rat) ≤ ((((o, v) :: ts).filter (fun t => decide (t.1 ≤ ms))).length : Rat) := by exact_mod_cast Nat.zero_le _
      generalize ((((o, v) :: ts).filter (fun t => decide (t.1 ≤ ms))).length : Rat) = n at *
      have hnE := Rat.mul_nonneg hn0 hE
      generalize 234375 / m = E at *
      split
      · have : tickFrom p o = tickFrom p ms := by omega
        rw [this, clockFrom_self]
        · constructor <;> grind
        · intro x hx
          obtain ⟨y, hy, rfl⟩ := List.mem_map.1 hx
          have := entries_ge (h.next h1 h2) h3 _ (by rw [this]; exact hy)
          simp only at this ⊢
          omega
      · constructor <;> grind

/-- No tempo but the first one comes in the first tick. -/
theorem entries_later {m : Rat} {ts : List (Int × Rat)} : ∀ {p : TempoEntry}, Sound1 p → Rising p.offsetMs ts → m ≤ p.tempo → (0 < p.offsetMs → 1 ≤ p.ticks) →
    (∀ t ∈ ts, m ≤ t.2 ∧ (0 < t.1 → 30000 ≤ t.1 * (m * 128))) → ∀ x ∈ entries p ts, 0 < x.offsetMs → 1 ≤ x.ticks := by
  induction ts with
  | nil => intro p _ _ _ _ _ x hx; cases hx
  | cons t ts ih =>
    intro p h hr hp h1 ht x hx
    obtain ⟨o, v⟩ := t
    obtain ⟨r1, r2, r3⟩ := hr
    have hv := ht (o, v) (List.mem_cons_self ..)
    have key : 0 < o → 1 ≤ tickFrom p o := by
      intro ho
      have hge := tickFrom_ge h.tempo r1
      by_cases h0 : 0 < p.offsetMs
      · have := h1 h0; omega
      · have h0 : p.offsetMs = 0 := by have := h.offset; omega
        have hz := h.zero h0
        have hb := hv.2 ho
        have hoc : (0 : Rat) ≤ (o : Rat) := by exact_mod_cast (by omega : (0 : Int) ≤ o)
        have hmul := Rat.mul_le_mul_of_nonneg_left (a := m * 128) (b := p.tempo * 128) (c := (o : Rat)) (by grind) hoc
        unfold tickFrom
        rw [h0, hz]
        have := lt_javaRound (((0 : Int) : Rat) + ((o : Rat) - ((0 : Int) : Rat)) * (p.tempo * resolution) / 60000)
        have z : ((0 : Int) : Rat) = 0 := rfl
        rw [z] at this ⊢
        have : (0 : Int) < javaRound (0 + ((o : Rat) - 0) * (p.tempo * resolution) / 60000) := by
          refine Rat.intCast_lt_intCast.1 ?_
          rw [z]
          have : 1 / 2 ≤ 0 + ((o : Rat) - 0) * (p.tempo * resolution) / 60000 := by unfold resolution; grind
          grind
        omega
    rcases List.mem_cons.1 hx with rfl | hx
    · exact key
    · exact ih (h.next r1 r2) r3 hv.1 key (fun t h => ht t (List.mem_cons_of_mem _ h)) x hx

theorem entries_sound {ts : List (Int × Rat)} : ∀ {p : TempoEntry}, Sound1 p → Rising p.offsetMs ts → ∀ x ∈ entries p ts, Sound1 x := by
  induction ts with
  | nil => intro p _ _ x hx; cases hx
  | cons t ts ih =>
    intro p h hr x hx
    obtain ⟨o, v⟩ := t
    obtain ⟨h1, h2, h3⟩ := hr
    rcases List.mem_cons.1 hx with rfl | hx
    · exact h.next h1 h2
    · exact ih (h.next h1 h2) h3 x hx

theorem mem_takeWhile_of {l : List TempoEntry} {x : TempoEntry} (h : x ∈ l.takeWhile (fun x => decide (x.ticks ≤ 0))) : x.ticks ≤ 0 := by
  induction l with
  | nil => cases h
  | cons a l ih =>
    simp only [List.takeWhile_cons] at h
    split at h
    · rcases List.mem_cons.1 h with rfl | h
      · rename_i h'; simpa using h'
      · exact ih h
    · cases h

/-- At tick 0 the time is 0. -/
theorem ticksToMs_zero {l : List TempoEntry} {p : TempoEntry} (hp : p.ticks = 0) (hs : ∀ x ∈ p :: l, Sound1 x) (h : ∀ x ∈ p :: l, 0 < x.offsetMs → 1 ≤ x.ticks) :
    ticksToMs (p :: l) 0 = some 0 := by
  unfold ticksToMs
  rw [List.takeWhile_cons_of_pos (by simp [hp])]
  cases hg : (p :: l.takeWhile (fun x => decide (x.ticks ≤ 0))).getLast? with
  | none => simp at hg
  | some x =>
    have hx : x ∈ p :: l.takeWhile (fun x => decide (x.ticks ≤ 0)) := List.mem_of_getLast? hg
    have hx' : x ∈ p :: l ∧ x.ticks ≤ 0 := by
      rcases List.mem_cons.1 hx with rfl | hx
      · exact ⟨List.mem_cons_self .., by omega⟩
      · exact ⟨List.mem_cons_of_mem _ ((List.takeWhile_sublist _).mem hx), mem_takeWhile_of hx⟩
    have h1 := hs x hx'.1
    have h0 : x.offsetMs = 0 := by
      have := h1.offset
      have := h x hx'.1
      omega
    have ht := h1.tempo
    simp only
    rw [if_neg (by grind), h0, h1.zero h0]
    congr 1
    have z : ((0 : Int) : Rat) = 0 := rfl
    rw [z]; grind

end Player
end Alda
