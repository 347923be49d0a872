import Verif.Spec.Pitch
/-!
C05 (pitch arithmetic), C06 (scale names), C07 (circle of fifths).
-/
namespace Alda
open Spec

theorem wrap32_add (a b : Int) : wrap32 (wrap32 a + b) = wrap32 (a + b) := by unfold wrap32; omega
theorem wrap32_sub (a b : Int) : wrap32 (wrap32 a - b) = wrap32 (a - b) := by unfold wrap32; omega
theorem wrap32_mul12 (a : Int) : wrap32 (wrap32 a * 12) = wrap32 (a * 12) := by unfold wrap32; omega
theorem wrap32_id {n : Int} (h : InInt32 n) : wrap32 n = n := by unfold wrap32; unfold InInt32 at h; omega

theorem wrap32_applyAccidentals (as : List Accidental) (n t : Int) :
    wrap32 (applyAccidentals (wrap32 n) as + t) = wrap32 (n + alteration as + t) := by
  induction as generalizing n with
  | nil => simp [applyAccidentals, alteration, wrap32_add]
  | cons a as ih =>
    cases a <;> simp only [applyAccidentals, alteration, List.map_cons, List.sum_cons, signOf] at ih ⊢
    · rw [wrap32_sub, ih]; congr 1; omega
    · rw [ih]; congr 1; omega
    · rw [wrap32_add, ih]; congr 1; omega

/-- C05, in full generality: the computed note is the musical one modulo 2^32. The accidentals are those of the note if any are
written, else those of the key signature. -/
theorem calculateMidiNote_letter (l : Letter) (acc : Option (List Accidental)) (o t : Int) (ks : KeySig) :
    calculateMidiNote (.letter l acc) o ks t
      = wrap32 (pitchOf l (match acc with | some as => as | none => onLetter ks l) o t) := by
  have hr : KeySig.read ks l = onLetter ks l := by
    unfold KeySig.read onLetter; cases ks l <;> rfl
  simp only [calculateMidiNote, hr, wrap32_mul12]
  rw [wrap32_add, wrap32_applyAccidentals]
  unfold pitchOf
  have h : l.interval = semitone l := by cases l <;> rfl
  rw [h]
  congr 1
  cases acc <;> simp only <;> omega

/-- C05: if the musical pitch fits in 32 bits, it is what is computed (whatever the intermediate results). Written accidentals. -/
theorem c05_written_accidentals (l : Letter) (as : List Accidental) (o t : Int) (ks : KeySig)
    (h : InInt32 (pitchOf l as o t)) :
    calculateMidiNote (.letter l (some as)) o ks t = pitchOf l as o t := by
  rw [calculateMidiNote_letter]; exact wrap32_id h

/-- C05: no accidentals written, the key signature's are used. -/
theorem c05_key_signature (l : Letter) (o t : Int) (ks : KeySig)
    (h : InInt32 (pitchOf l (onLetter ks l) o t)) :
    calculateMidiNote (.letter l none) o ks t = pitchOf l (onLetter ks l) o t := by
  rw [calculateMidiNote_letter]; exact wrap32_id h

/-- C05: a note given by number sounds at that number plus the transposition. -/
theorem c05_midi_number (n o t : Int) (ks : KeySig) (h : InInt32 (n + t)) :
    calculateMidiNote (.midi n) o ks t = n + t := by
  simp only [calculateMidiNote]; exact wrap32_id h

/-- C05: one octave is exactly 12 semitones, for any letter, accidentals, key and transposition, modulo 2^32 (and exactly if both
values are MIDI notes). -/
theorem c05_octave_is_twelve (l : Letter) (acc : Option (List Accidental)) (o t : Int) (ks : KeySig)
    (h0 : 0 ≤ calculateMidiNote (.letter l acc) o ks t) (h1 : calculateMidiNote (.letter l acc) o ks t ≤ 115) :
    calculateMidiNote (.letter l acc) (o + 1) ks t = calculateMidiNote (.letter l acc) o ks t + 12 := by
  rw [calculateMidiNote_letter] at *
  rw [calculateMidiNote_letter]
  unfold pitchOf at *
  unfold wrap32 at *
  omega

/-- C05: transposing by `n` more shifts every pitch by exactly `n`. -/
theorem c05_transposition (p : Pitch) (o t n : Int) (ks : KeySig)
    (h0 : 0 ≤ calculateMidiNote p o ks t) (h1 : calculateMidiNote p o ks t ≤ 127) (hn : -1000000 ≤ n ∧ n ≤ 1000000) :
    calculateMidiNote p o ks (t + n) = calculateMidiNote p o ks t + n := by
  cases p with
  | letter l acc =>
    rw [calculateMidiNote_letter] at *
    rw [calculateMidiNote_letter]
    unfold pitchOf at *
    unfold wrap32 at *
    omega
  | midi m =>
    simp only [calculateMidiNote] at *
    unfold wrap32 at *
    omega

-- non-trivial cases: B flat in octave 5 transposed by -2 in a key with F sharp; F from the key signature
example : InInt32 (pitchOf .B [.flat] 5 (-2)) ∧ pitchOf .B [.flat] 5 (-2) = 80 := by decide +kernel
example : calculateMidiNote (.letter .F none) 4 (KeySig.empty.set .F [.sharp]) 0 = 66 := by decide +kernel
example : 0 ≤ calculateMidiNote (.letter .B (some [.flat])) 5 KeySig.empty (-2)
    ∧ calculateMidiNote (.letter .B (some [.flat])) 5 KeySig.empty (-2) ≤ 115 := by decide +kernel
example : InInt32 ((60 : Int) + 7) := by decide +kernel

/-- The 32 bit guard of C05 is needed: in octave 357913941 the letter C is computed as MIDI note 8, a valid note, instead of being out of
range. -/
theorem c05_overflow_witness :
    calculateMidiNote (.letter .C none) 357913941 KeySig.empty 0 = 8
    ∧ pitchOf .C [] 357913941 0 = 4294967304 := by decide +kernel

/-! ### C06 -/

/-- No naturals in a list of accidentals. -/
def NoNaturals (as : List Accidental) : Prop := ∀ a ∈ as, a ≠ .natural

theorem alteration_append (as bs : List Accidental) : alteration (as ++ bs) = alteration as + alteration bs := by
  simp [alteration, List.map_append]

theorem shiftLoop_true (this : Accidental) (as : List Accidental) : shiftLoop this true as = (as, true) := by
  induction as with
  | nil => rfl
  | cons a as ih => simp [shiftLoop, ih]

theorem shiftLoop_alteration (this that : Accidental) (h : signOf that = - signOf this)
    (ho : ∀ a, a ≠ .natural → a = this ∨ a = that) (as : List Accidental) (hn : NoNaturals as) :
    (∀ a ∈ (shiftLoop this false as).1, a ≠ .natural) ∧
    alteration (shiftLoop this false as).1 + (if (shiftLoop this false as).2 then 0 else signOf this)
      = alteration as + signOf this := by
  induction as with
  | nil => simp [shiftLoop, alteration]
  | cons a as ih =>
    have hn' : NoNaturals as := fun b hb => hn b (List.mem_cons_of_mem _ hb)
    by_cases ha : a = this
    · subst ha
      simp only [shiftLoop, true_or, ↓reduceIte]
      have := ih hn'
      refine ⟨?_, ?_⟩
      · intro b hb
        rcases List.mem_cons.1 hb with rfl | hb
        · exact hn _ (List.mem_cons_self ..)
        · exact this.1 b hb
      · simp only [alteration, List.map_cons, List.sum_cons] at this ⊢
        omega
    · have ha' : a = that := (ho a (hn a (List.mem_cons_self ..))).resolve_left ha
      simp only [shiftLoop, ha, false_or, Bool.false_eq_true, ↓reduceIte, shiftLoop_true]
      refine ⟨hn', ?_⟩
      simp only [alteration, List.map_cons, List.sum_cons, ha', h]
      omega

/-- Shifting an entry moves its alteration by one step and introduces no naturals. -/
theorem shiftLetter_alteration (this that : Accidental) (h : signOf that = - signOf this) (hthis : this ≠ .natural)
    (ho : ∀ a, a ≠ .natural → a = this ∨ a = that) (e : Option (List Accidental)) (hn : NoNaturals (e.getD [])) :
    NoNaturals ((shiftLetter this that e).getD []) ∧
    alteration ((shiftLetter this that e).getD []) = alteration (e.getD []) + signOf this := by
  cases e with
  | none => simp [shiftLetter, NoNaturals, alteration, hthis]
  | some as =>
    simp only [shiftLetter, Option.getD_some] at *
    by_cases has : as = [that]
    · subst has; simp only [NoNaturals, alteration, h, ↓reduceIte, Option.getD_none, List.map_nil, List.sum_nil, List.map_cons, List.sum_cons]; exact ⟨by simp, by omega⟩
    · simp only [has, ↓reduceIte, Option.getD_some]
      have hs := shiftLoop_alteration this that h ho as hn
      by_cases h2 : (shiftLoop this false as).2 = true
      · simp only [h2, ↓reduceIte] at hs ⊢
        exact ⟨hs.1, by omega⟩
      · simp only [h2, Bool.false_eq_true, ↓reduceIte] at hs ⊢
        refine ⟨?_, ?_⟩
        · intro b hb
          rcases List.mem_append.1 hb with hb | hb
          · exact hs.1 b hb
          · simp at hb; subst hb; exact hthis
        · rw [alteration_append]
          simp only [alteration, List.map_cons, List.map_nil, List.sum_cons, List.sum_nil] at *
          omega

theorem onLetter_eq (ks : KeySig) (l : Letter) : onLetter ks l = (ks l).getD [] := by
  unfold onLetter; cases ks l <;> rfl

theorem shiftByTonic_alteration (as : List Accidental) (ks : KeySig) (hks : ∀ l, NoNaturals (onLetter ks l)) (l : Letter) :
    alteration (onLetter (shiftByTonic ks as) l) = alteration (onLetter ks l) + alteration as := by
  induction as generalizing ks with
  | nil => simp [shiftByTonic, alteration]
  | cons a as ih =>
    have key : ∀ (this that : Accidental), signOf that = - signOf this → this ≠ .natural →
        (∀ a, a ≠ Accidental.natural → a = this ∨ a = that) →
        (∀ l, NoNaturals (onLetter (shiftKey ks this that) l)) ∧
        ∀ l, alteration (onLetter (shiftKey ks this that) l) = alteration (onLetter ks l) + signOf this := by
      intro this that h1 h2 h3
      constructor <;> intro l <;>
        have := shiftLetter_alteration this that h1 h2 h3 (ks l) (onLetter_eq ks l ▸ hks l)
      · rw [onLetter_eq]; exact this.1
      · rw [onLetter_eq, onLetter_eq]; exact this.2
    cases a with
    | natural =>
      simp only [shiftByTonic]
      rw [ih ks hks]
      simp [alteration, signOf]
    | flat =>
      have := key .flat .sharp rfl (by decide) (by intro a; cases a <;> simp)
      simp only [shiftByTonic, KeySig.flatten]
      rw [ih _ this.1, this.2]
      simp only [alteration, List.map_cons, List.sum_cons]
      omega
    | sharp =>
      have := key .sharp .flat rfl (by decide) (by intro a; cases a <;> simp)
      simp only [shiftByTonic, KeySig.sharpen]
      rw [ih _ this.1, this.2]
      simp only [alteration, List.map_cons, List.sum_cons]
      omega

instance (as : List Accidental) : Decidable (NoNaturals as) := by unfold NoNaturals; infer_instance

theorem Letter.forall_iff {P : Letter → Prop} : (∀ l, P l) ↔ ∀ l ∈ Letter.all, P l :=
  ⟨fun h l _ => h l, fun h l => h l (by cases l <;> decide)⟩

def Scale.all : List Scale := [.ionian, .dorian, .phrygian, .lydian, .mixolydian, .aeolian, .locrian]

theorem Scale.forall_iff {P : Scale → Prop} : (∀ l, P l) ↔ ∀ l ∈ Scale.all, P l :=
  ⟨fun h l _ => h l, fun h l => h l (by cases l <;> decide)⟩

instance {P : Letter → Prop} [DecidablePred P] : Decidable (∀ l, P l) := decidable_of_iff _ Letter.forall_iff.symm
instance {P : Scale → Prop} [DecidablePred P] : Decidable (∀ l, P l) := decidable_of_iff _ Scale.forall_iff.symm

theorem scale_base_noNaturals : ∀ (t : Letter) (s : Scale) (l : Letter),
    NoNaturals (onLetter (keySigFromFifths (partialCircleOfFifths s t)) l) := by
  decide +kernel

theorem scale_base_degrees : ∀ (t : Letter) (s : Scale), ∀ i ∈ List.range 7,
    12 * (degree t i).2 + semitone (degree t i).1
      + alteration (onLetter (keySigFromFifths (partialCircleOfFifths s t)) (degree t i).1)
      = semitone t + (modeIntervals s).getD i 0 := by
  decide +kernel

/-- C06: in the key signature computed for the scale on a tonic (a letter with any accidentals), degree `i` of the scale lies exactly the
mode's interval above the tonic's own pitch, in whatever octave the tonic is. -/
theorem c06_scale (t : Letter) (accs : List Accidental) (s : Scale) (i : Nat) (hi : i < 7) (octave : Int) :
    pitchOf (degree t i).1 (onLetter (keySigFromScale t accs s) (degree t i).1) (octave + (degree t i).2) 0
      = pitchOf t accs octave 0 + (modeIntervals s).getD i 0 := by
  have h1 := scale_base_degrees t s i (List.mem_range.2 hi)
  have h2 := shiftByTonic_alteration accs _ (scale_base_noNaturals t s) (degree t i).1
  unfold keySigFromScale pitchOf
  rw [h2]
  omega

/-- C06, as a consequence for played notes: playing the letters of the scale without accidentals in that key gives those pitches. -/
theorem c06_scale_played (t : Letter) (accs : List Accidental) (s : Scale) (i : Nat) (hi : i < 7) (octave : Int)
    (h : InInt32 (pitchOf t accs octave 0 + (modeIntervals s).getD i 0)) :
    calculateMidiNote (.letter (degree t i).1 none) (octave + (degree t i).2) (keySigFromScale t accs s) 0
      = pitchOf t accs octave 0 + (modeIntervals s).getD i 0 := by
  rw [c05_key_signature]
  · exact c06_scale t accs s i hi octave
  · rw [c06_scale t accs s i hi octave]; exact h

-- G double-flat phrygian, sixth degree: E triple flat
example : (degree .G 5).1 = .E ∧ onLetter (keySigFromScale .G [.flat, .flat] .phrygian) .E = [.flat, .flat, .flat]
    ∧ InInt32 (pitchOf .G [.flat, .flat] 4 0 + (modeIntervals .phrygian).getD 5 0) := by decide +kernel

/-! ### C07 -/

theorem fifthsLoop_read (order : List Letter) (hlen : order.length = 7) (hnd : order.Nodup) (acc : Accidental) (n : Nat) :
    ∀ i (hi : i < 7), onLetter (fifthsLoop order acc n) (order[i]'(hlen ▸ hi)) = List.replicate ((n + 6 - i) / 7) acc := by
  induction n with
  | zero =>
    intro i hi
    have : (0 + 6 - i) / 7 = 0 := by omega
    simp [fifthsLoop, onLetter, KeySig.empty, this]
  | succ n ih =>
    intro i hi
    have hm : n % 7 < 7 := Nat.mod_lt _ (by decide)
    have hget : order.getD (n % order.length) .A = order[n % 7]'(hlen ▸ hm) := by
      simp only [hlen, List.getD_eq_getElem?_getD]
      rw [List.getElem?_eq_getElem (hlen ▸ hm)]; rfl
    simp only [fifthsLoop, hget]
    have hread : ∀ (ks : KeySig) l, KeySig.read ks l = onLetter ks l := by
      intro ks l; rw [onLetter_eq]; rfl
    by_cases hin : i = n % 7
    · subst hin
      have e : onLetter ((fifthsLoop order acc n).set (order[n % 7]'(hlen ▸ hm))
          ((fifthsLoop order acc n).read (order[n % 7]'(hlen ▸ hm)) ++ [acc])) (order[n % 7]'(hlen ▸ hm))
          = (fifthsLoop order acc n).read (order[n % 7]'(hlen ▸ hm)) ++ [acc] := by
        simp [onLetter, KeySig.set]
      rw [e, hread, ih _ hm, ← List.replicate_succ']
      congr 1
      omega
    · have hne : order[i]'(hlen ▸ hi) ≠ order[n % 7]'(hlen ▸ hm) := by
        intro h; exact hin ((List.getElem_inj hnd).1 h)
      have e : onLetter ((fifthsLoop order acc n).set (order[n % 7]'(hlen ▸ hm))
          ((fifthsLoop order acc n).read (order[n % 7]'(hlen ▸ hm)) ++ [acc])) (order[i]'(hlen ▸ hi))
          = onLetter (fifthsLoop order acc n) (order[i]'(hlen ▸ hi)) := by
        simp [onLetter, KeySig.set, hne]
      rw [e, ih _ hi]
      congr 1
      omega

/-- The number of accidentals on the letter at position `i` of the order after `n` steps around the circle. -/
theorem c07_sharps (n : Nat) (i : Nat) (hi : i < 7) :
    onLetter (keySigFromFifths n) (sharpsOrder[i]'hi) = List.replicate ((n + 6 - i) / 7) .sharp := by
  by_cases h0 : n = 0
  · subst h0
    have : (0 + 6 - i) / 7 = 0 := by omega
    simp [keySigFromFifths, onLetter, KeySig.empty, this]
  · have : keySigFromFifths n = fifthsLoop sharpsOrder .sharp n := by
      have h1 : ¬ ((n : Int) = 0) := by omega
      have h2 : (n : Int) > 0 := by omega
      simp only [keySigFromFifths, h1, h2, ↓reduceIte, Int.natAbs_natCast]; rfl
    rw [this]
    exact fifthsLoop_read sharpsOrder rfl (by decide) .sharp n i hi

/-- The same for flats. -/
theorem c07_flats (n : Nat) (i : Nat) (hi : i < 7) :
    onLetter (keySigFromFifths (-(n : Int))) (flatsOrder[i]'hi) = List.replicate ((n + 6 - i) / 7) .flat := by
  by_cases h0 : n = 0
  · subst h0
    have : (0 + 6 - i) / 7 = 0 := by omega
    simp [keySigFromFifths, onLetter, KeySig.empty, this]
  · have : keySigFromFifths (-(n : Int)) = fifthsLoop flatsOrder .flat n := by
      have h1 : ¬ (-(n : Int) = 0) := by omega
      have h2 : ¬ (-(n : Int) > 0) := by omega
      simp only [keySigFromFifths, h1, h2, ↓reduceIte, Int.natAbs_neg, Int.natAbs_natCast]; rfl
    rw [this]
    exact fifthsLoop_read flatsOrder rfl (by decide) .flat n i hi

/-- C07: for 0 ≤ n ≤ 7 exactly the first `n` letters of F C G D A E B carry one sharp, the others nothing. -/
theorem c07_up_to_seven_sharps (n : Nat) (hn : n ≤ 7) (i : Nat) (hi : i < 7) :
    onLetter (keySigFromFifths n) (sharpsOrder[i]'hi) = if i < n then [.sharp] else [] := by
  rw [c07_sharps n i hi]
  by_cases h : i < n
  · have : (n + 6 - i) / 7 = 1 := by omega
    simp [h, this]
  · have : (n + 6 - i) / 7 = 0 := by omega
    simp [h, this]

/-- C07: the same for flats and B E A D G C F. -/
theorem c07_up_to_seven_flats (n : Nat) (hn : n ≤ 7) (i : Nat) (hi : i < 7) :
    onLetter (keySigFromFifths (-(n : Int))) (flatsOrder[i]'hi) = if i < n then [.flat] else [] := by
  rw [c07_flats n i hi]
  by_cases h : i < n
  · have : (n + 6 - i) / 7 = 1 := by omega
    simp [h, this]
  · have : (n + 6 - i) / 7 = 0 := by omega
    simp [h, this]

theorem alteration_replicate (k : Nat) (a : Accidental) : alteration (List.replicate k a) = k * signOf a := by
  induction k with
  | zero => simp [alteration]
  | succ k ih =>
    rw [List.replicate_succ]
    simp only [alteration, List.map_cons, List.sum_cons] at *
    rw [ih, Int.natCast_succ, Int.add_mul]; omega

theorem seventh (m i : Nat) (hi : i < 7) : (m + 6 - i) / 7 = m / 7 + if i < m % 7 then 1 else 0 := by
  split <;> omega

theorem sevenths (m : Nat) : (m + 6 - 0) / 7 + (m + 6 - 1) / 7 + (m + 6 - 2) / 7 + (m + 6 - 3) / 7 + (m + 6 - 4) / 7
    + (m + 6 - 5) / 7 + (m + 6 - 6) / 7 = m := by
  rw [seventh m 0 (by decide), seventh m 1 (by decide), seventh m 2 (by decide), seventh m 3 (by decide),
    seventh m 4 (by decide), seventh m 5 (by decide), seventh m 6 (by decide)]
  have h := Nat.div_add_mod m 7
  have hr : m % 7 < 7 := Nat.mod_lt _ (by decide)
  revert h hr
  generalize m / 7 = q
  generalize m % 7 = r
  intro h hr
  match r, hr with
  | 0, _ | 1, _ | 2, _ | 3, _ | 4, _ | 5, _ | 6, _ => simp; omega

/-- C07: for every integer `n` the signed number of accidentals is `n`. -/
theorem c07_total (n : Int) : totalAlteration (keySigFromFifths n) = n := by
  rcases Int.le_total 0 n with h | h
  · obtain ⟨m, rfl⟩ := Int.eq_ofNat_of_zero_le h
    have s := fun i hi => c07_sharps m i hi
    have h0 := s 0 (by decide); have h1 := s 1 (by decide); have h2 := s 2 (by decide)
    have h3 := s 3 (by decide); have h4 := s 4 (by decide); have h5 := s 5 (by decide); have h6 := s 6 (by decide)
    simp only [sharpsOrder, List.getElem_cons_zero, List.getElem_cons_succ] at h0 h1 h2 h3 h4 h5 h6
    unfold totalAlteration
    simp only [h0, h1, h2, h3, h4, h5, h6, alteration_replicate, signOf]
    have hs := sevenths m
    revert hs
    generalize (m + 6 - 0) / 7 = a; generalize (m + 6 - 1) / 7 = b; generalize (m + 6 - 2) / 7 = c
    generalize (m + 6 - 3) / 7 = d; generalize (m + 6 - 4) / 7 = e; generalize (m + 6 - 5) / 7 = f
    generalize (m + 6 - 6) / 7 = g
    omega
  · obtain ⟨m, hm⟩ := Int.eq_ofNat_of_zero_le (Int.neg_nonneg_of_nonpos h)
    have hn : n = -(m : Int) := by omega
    subst hn
    have s := fun i hi => c07_flats m i hi
    have h0 := s 0 (by decide); have h1 := s 1 (by decide); have h2 := s 2 (by decide)
    have h3 := s 3 (by decide); have h4 := s 4 (by decide); have h5 := s 5 (by decide); have h6 := s 6 (by decide)
    simp only [flatsOrder, List.getElem_cons_zero, List.getElem_cons_succ] at h0 h1 h2 h3 h4 h5 h6
    unfold totalAlteration
    simp only [h0, h1, h2, h3, h4, h5, h6, alteration_replicate, signOf]
    have hs := sevenths m
    revert hs
    generalize (m + 6 - 0) / 7 = a; generalize (m + 6 - 1) / 7 = b; generalize (m + 6 - 2) / 7 = c
    generalize (m + 6 - 3) / 7 = d; generalize (m + 6 - 4) / 7 = e; generalize (m + 6 - 5) / 7 = f
    generalize (m + 6 - 6) / 7 = g
    omega

-- three sharps: F C G; nine flats: B and E doubly flat
example : (3 : Nat) ≤ 7 ∧ onLetter (keySigFromFifths 3) .G = [.sharp] ∧ onLetter (keySigFromFifths 3) .D = [] := by decide +kernel
example : onLetter (keySigFromFifths (-9)) .E = [.flat, .flat] ∧ onLetter (keySigFromFifths (-9)) .A = [.flat] := by decide +kernel

end Alda
