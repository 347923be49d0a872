import Verif.Lemmas.ImportNumbers
import Verif.Spec.Pitch
import Verif.Props.Duration
/-!
Importing numbers from MusicXML: percussion numbers (C42) and durations (C43).
-/
namespace Alda
open Spec Importer

/-! ### C42 -/

/-- The pitch that a MIDI note number is translated to. -/
def translatedPitch (n : Int) : Int :=
  pitchOf (toLetterAndOctave n).1 ((toLetterAndOctave n).2.1.getD []) (toLetterAndOctave n).2.2 0

theorem alteration_sharps (k : Nat) : alteration (List.replicate k .sharp) = k := by
  induction k with
  | zero => rfl
  | succ k ih =>
    simp only [alteration, List.replicate_succ, List.map_cons, List.sum_cons] at ih ⊢
    rw [ih]; simp only [signOf]; omega

theorem letter_and_sharps (r : Int) (h0 : 0 ≤ r) (h1 : r < 12) :
    semitone (letterFor r) + alteration ((sharpsFor r (letterFor r)).getD []) = r := by
  have : r = 0 ∨ r = 1 ∨ r = 2 ∨ r = 3 ∨ r = 4 ∨ r = 5 ∨ r = 6 ∨ r = 7 ∨ r = 8 ∨ r = 9 ∨ r = 10 ∨ r = 11 := by omega
  rcases this with h | h | h | h | h | h | h | h | h | h | h | h <;> subst h <;> decide +kernel

theorem wrap32_eq {n : Int} (h0 : -2147483648 ≤ n) (h1 : n ≤ 2147483647) : wrap32 n = n := by unfold wrap32; omega

/-- C42: a MIDI note number from 24 on, or a multiple of 12, is translated to a letter, accidentals and an octave with exactly that number. Missing: the other numbers
below 24 (see `c42_low_witness`). -/
theorem c42_partial (n : Int) (h0 : -2147483624 ≤ n) (h1 : n ≤ 2147483647) (h : 24 ≤ n ∨ n % 12 = 0) : translatedPitch n = n := by
  unfold translatedPitch toLetterAndOctave
  simp only
  rw [wrap32_eq (n := n - 24) (by omega) (by omega)]
  have hd := Int.mul_tdiv_add_tmod (n - 24) 12
  have hr : 0 ≤ (n - 24).tmod 12 ∧ (n - 24).tmod 12 < 12 := by
    rcases h with h | h
    · rw [Int.tmod_eq_emod_of_nonneg (by omega)]; omega
    · have : (12 : Int) ∣ n - 24 := by omega
      rw [Int.tmod_eq_zero_of_dvd this]; omega
  generalize (n - 24).tdiv 12 = q at hd
  generalize (n - 24).tmod 12 = r at hd hr
  rw [wrap32_eq (by omega) (by omega)]
  have := letter_and_sharps r hr.1 hr.2
  unfold pitchOf
  omega

/-- The hypotheses of `c42_partial` are met by every number on a percussion staff, for example the bass drum and the hi-hat. -/
example : translatedPitch 35 = 35 ∧ translatedPitch 42 = 42 ∧ toLetterAndOctave 42 = (.F, some [.sharp], 2) := by decide +kernel

/-- C42 is false below 24: number 13 becomes the C an octave (less a semitone) above. -/
theorem c42_low_witness : translatedPitch 13 = 24 := by decide +kernel

/-- Every number below 24 that is no multiple of 12 becomes too high. -/
theorem c42_low (n : Int) (h0 : -2147483624 ≤ n) (h1 : n < 24) (h : n % 12 ≠ 0) : translatedPitch n ≠ n := by
  unfold translatedPitch toLetterAndOctave
  simp only
  rw [wrap32_eq (n := n - 24) (by omega) (by omega)]
  have hd := Int.mul_tdiv_add_tmod (n - 24) 12
  have hr : -12 < (n - 24).tmod 12 ∧ (n - 24).tmod 12 < 0 := by
    have h2 : (n - 24).tmod 12 ≠ 0 := by
      intro h0
      omega
    have := Int.lt_tmod_of_pos (n - 24) (show (0 : Int) < 12 by omega)
    have : (n - 24).tmod 12 ≤ 0 := by
      have := Int.tmod_nonneg 12 (show 0 ≤ -(n - 24) by omega)
      rw [Int.neg_tmod] at this; omega
    omega
  generalize (n - 24).tdiv 12 = q at hd
  generalize (n - 24).tmod 12 = r at hd hr
  rw [wrap32_eq (by omega) (by omega)]
  have hl : letterFor r = .C := by
    simp only [letterFor, Letter.all, List.foldl_cons, List.foldl_nil, Letter.interval]
    simp [show ¬ (9 ≤ r) by omega, show ¬ (11 ≤ r) by omega, show ¬ (2 ≤ r) by omega, show ¬ (4 ≤ r) by omega, show ¬ (5 ≤ r) by omega, show ¬ (7 ≤ r) by omega]
  rw [hl]
  have hs : sharpsFor r .C = none := by
    unfold sharpsFor
    exact if_neg (show ¬ (0 < r) by omega)
  rw [hs]
  simp only [Option.getD_none, pitchOf, semitone, alteration, List.map_nil, List.sum_nil]
  omega

/-! ### C43 -/

/-- `x` is not within a ten-thousandth of an integer without being equal to it. -/
def NotNearlyWhole (x : Rat) : Prop := ∀ m : Int, (x - m).abs < 1 / 10000 → x = m

theorem abs_lt_iff {x y : Rat} (h : x.abs < y) : -y < x ∧ x < y := by
  unfold Rat.abs at h
  split at h <;> grind

theorem roundIf_cases (x : Rat) : roundIfCloseEnough x = x ∨ ∃ m : Int, roundIfCloseEnough x = m ∧ (x - m).abs < 1 / 10000 := by
  unfold roundIfCloseEnough
  split
  · rename_i h; exact .inr ⟨_, rfl, h⟩
  · exact .inl rfl

theorem roundIf_eq {x : Rat} (h : NotNearlyWhole x) : roundIfCloseEnough x = x := by
  rcases roundIf_cases x with h1 | ⟨m, h1, h2⟩
  · exact h1
  · rw [h1, h m h2]


mutual
theorem comp_beats_ms (T : Rat) (hT : T ≠ 0) : ∀ (c : DurComp) (q : Rat), c.toBeats = .ok q → c.toMs T = some (q * (60000 / T))
  | .length d k, q, h => by
    simp only [DurComp.toBeats] at h
    simp only [DurComp.toMs]
    split at h
    · simp at h
    · simp only [BeatsResult.ok.injEq] at h; subst h; simp only [beatsMs, if_neg hT]
  | .beats x, q, h => by
    simp only [DurComp.toBeats, BeatsResult.ok.injEq] at h; subst h; simp only [DurComp.toMs, beatsMs, if_neg hT]
  | .ms _, q, h => by simp [DurComp.toBeats] at h
  | .seconds _, q, h => by simp [DurComp.toBeats] at h
  | .nested cs, q, h => by
    simp only [DurComp.toBeats] at h
    simp only [DurComp.toMs]
    have := comps_beats_ms T hT cs 0 q h
    rw [Rat.zero_mul] at this; exact this
  | .barline, q, h => by
    simp only [DurComp.toBeats, BeatsResult.ok.injEq] at h; subst h; simp only [DurComp.toMs]; congr 1; grind
theorem comps_beats_ms (T : Rat) (hT : T ≠ 0) : ∀ (cs : List DurComp) (acc q : Rat), Dur.toBeatsFrom acc cs = .ok q →
    Dur.toMsFrom T (acc * (60000 / T)) cs = some (q * (60000 / T))
  | [], acc, q, h => by simp only [Dur.toBeatsFrom, BeatsResult.ok.injEq] at h; subst h; rfl
  | c :: cs, acc, q, h => by
    simp only [Dur.toBeatsFrom] at h
    cases hc : c.toBeats with
    | ok x =>
      rw [hc] at h
      have h1 := comp_beats_ms T hT c x hc
      have h2 := comps_beats_ms T hT cs (acc + x) q h
      simp only [Dur.toMsFrom, h1]
      rw [← Rat.add_mul]; exact h2
    | panic => rw [hc] at h; simp at h
    | nonFinite => rw [hc] at h; simp at h
end

theorem beats_ms {d : Dur} {q T : Rat} (hT : T ≠ 0) (h : d.toBeats = .ok q) : d.toMs T = some (q * (60000 / T)) := by
  have := comps_beats_ms T hT d 0 q h
  rw [Rat.zero_mul] at this; exact this

theorem normal_pos {n : Rat} (h : n ∈ normalLengths) : 1 ≤ n ∧ n ≤ 16 := by
  rcases mem_normal h with e | e | e | e | e <;> subst e <;> decide +kernel

/-- A duration without dots: it is either kept as it is or decomposed. -/
theorem idiomatic_plain {x : Rat} (hx : 0 < roundIfCloseEnough x) :
    ∃ d, idiomaticDuration x 0 = some d ∧
      (d.toBeats = .ok (4 / roundIfCloseEnough x) ∨
        ∃ r n, n ∈ normalLengths ∧ 0 < r ∧ (r - n).abs < 1 / 100 ∧ d.toBeats = .ok (4 * (1 / roundIfCloseEnough x - 1 / r + 1 / n)) ∧
          ∃ j : Int, (1 / roundIfCloseEnough x - 1 / r) * n = j) := by
  unfold idiomaticDuration
  simp only [if_true]
  generalize roundIfCloseEnough x = y at hx
  have hfuel : 16 * (1 / y) + ((normalLengths.length : Nat) : Rat) ≤ (((16 / y).ceil.toNat + 6 : Nat) : Rat) := by
    have h1 : 16 / y ≤ ((16 / y).ceil : Rat) := Rat.le_ceil
    have h2 : ((16 / y).ceil : Rat) ≤ (((16 / y).ceil.toNat : Nat) : Rat) := by
      have : (16 / y).ceil ≤ (((16 / y).ceil.toNat : Nat) : Int) := Int.self_le_toNat _
      have := Rat.intCast_le_intCast.mpr this
      rw [Rat.intCast_natCast] at this; exact this
    have e : 16 / y = 16 * (1 / y) := by grind
    have hl : ((normalLengths.length : Nat) : Rat) = 5 := by decide +kernel
    push_cast
    grind
  obtain ⟨⟨rem, picks⟩, hd⟩ := decompose_ends _ normalLengths y [] hx (fun _ h => h) hfuel
  rw [hd]
  simp only
  by_cases h0 : rem = 0
  · subst h0
    obtain ⟨h1, r, n, h2, h3, h4, h5, h6⟩ := decompose_sum _ _ _ _ _ hx (fun _ h => h) (by simp) (by
      intro n _; exact ⟨0, by simp [wholes]⟩) (List.suffix_refl _) hd
    refine ⟨_, by rw [if_pos rfl], .inr ⟨r, n, h2, h3, h4, ?_, ?_⟩⟩
    · rw [decomposed_beats picks h1, h5]; congr 1; simp only [wholes]; grind
    · obtain ⟨j, hj⟩ := h6; exact ⟨j, by rw [← hj]; simp only [wholes]; grind⟩
  · refine ⟨_, by rw [if_neg h0], .inl ?_⟩
    have hy : y ≠ 0 := by grind
    simp only [Dur.toBeats, Dur.toBeatsFrom, DurComp.toBeats, noteLengthBeats, if_neg hy]
    congr 1; grind


theorem not_nearly_whole (x : Rat) (a b : Int) (hb : 0 < b) (ha : a < 9999) (hx : x * b = a) (hlow : 1 / 10000 ≤ x) : NotNearlyWhole x := by
  intro m hm
  obtain ⟨h1, h2⟩ := abs_lt_iff hm
  have hbr : (0 : Rat) < b := by exact_mod_cast hb
  by_cases he : a = m * b
  · have : x * b = m * b := by rw [hx, he]; push_cast; rfl
    grind
  · exfalso
    have hm1 : 1 ≤ m := by
      rcases Int.lt_or_le 0 m with h | h
      · omega
      · exfalso
        have : (m : Rat) ≤ 0 := by exact_mod_cast h
        grind
    have l1 := Rat.mul_lt_mul_of_pos_right h1 hbr
    have l2 := Rat.mul_lt_mul_of_pos_right h2 hbr
    have e1 : (x - m) * b = a - m * b := by rw [← hx]; grind
    rw [e1] at l1 l2
    have hmb : b ≤ m * b := by
      have := Int.mul_le_mul_of_nonneg_right hm1 (Int.le_of_lt hb)
      omega
    have hmbr : (b : Rat) ≤ m * b := by exact_mod_cast hmb
    have haz : (a : Rat) < 9999 := by have := Rat.intCast_lt_intCast.mpr ha; rw [Rat.intCast_ofNat] at this; exact this
    have hbig : (10000 : Rat) < b := by
      rcases Int.lt_or_gt_of_ne he with h | h
      · have : (a : Rat) + 1 ≤ m * b := by exact_mod_cast h
        grind
      · have : (m : Rat) * b + 1 ≤ a := by exact_mod_cast h
        grind
    grind

/-- A remainder that is a fraction with denominator at most 24 beats is only close to a note length if it is equal. -/
theorem near_exact {d t : Int} {r n : Rat} (hd : 0 < d) (hd' : d ≤ 24) (hn : n ∈ normalLengths) (hr : 0 < r) (hc : (r - n).abs < 1 / 100) {j : Int}
    (hj : (t / (4 * d) - 1 / r) * n = j) : r = n := by
  obtain ⟨h1, h2⟩ := abs_lt_iff hc
  obtain ⟨N, hN, hN1⟩ : ∃ N : Int, n = N ∧ 1 ≤ N := by
    rcases mem_normal hn with e | e | e | e | e
    · exact ⟨1, by rw [e]; rfl, by omega⟩
    · exact ⟨2, by rw [e]; rfl, by omega⟩
    · exact ⟨4, by rw [e]; rfl, by omega⟩
    · exact ⟨8, by rw [e]; rfl, by omega⟩
    · exact ⟨16, by rw [e]; rfl, by omega⟩
  have hdr : (0 : Rat) < d := by exact_mod_cast hd
  have hd24 : (d : Rat) ≤ 24 := by exact_mod_cast hd'
  have hNr : (1 : Rat) ≤ N := by exact_mod_cast hN1
  have hK : r * ((t * N - 4 * d * j : Int) : Rat) = 4 * d * N := by
    push_cast
    rw [← hj, hN]
    grind
  rw [hN] at h1 h2 ⊢
  have hp : (0 : Rat) < 4 * d * N := Rat.mul_pos (by grind) (by grind)
  generalize t * N - 4 * d * j = K at hK
  have hKpos : (0 : Rat) < K := by
    by_cases h : (0 : Rat) < K
    · exact h
    · exfalso
      have := Rat.mul_le_mul_of_nonneg_left (Rat.not_lt.mp h) (Rat.le_of_lt hr)
      grind
  have e1 := Rat.mul_lt_mul_of_pos_right h1 hKpos
  have e2 := Rat.mul_lt_mul_of_pos_right h2 hKpos
  rcases Int.lt_trichotomy K (4 * d) with h | h | h
  · exfalso
    have hle : (K : Rat) + 1 ≤ 4 * d := by exact_mod_cast h
    have := Rat.mul_le_mul_of_nonneg_left hle (show (0 : Rat) ≤ N + 1 / 100 by grind)
    grind
  · have hK4 : (K : Rat) = 4 * d := by rw [h]; push_cast; rfl
    rw [hK4] at hK
    grind
  · exfalso
    have hle : (4 * d : Rat) + 1 ≤ K := by exact_mod_cast h
    have := Rat.mul_le_mul_of_nonneg_left hle (show (0 : Rat) ≤ N - 1 / 100 by grind)
    grind

theorem plain_beats (d t : Int) (hd : 0 < d) (hd' : d ≤ 24) (ht : 0 < t) (ht' : t ≤ 40000 * d) :
    ∃ D, translateDuration d 0 t = some D ∧ D.toBeats = .ok (t / d) := by
  have hdr : (0 : Rat) < d := by exact_mod_cast hd
  have htr : (0 : Rat) < t := by exact_mod_cast ht
  have htr' : (t : Rat) ≤ 40000 * d := by have := Rat.intCast_le_intCast.mpr ht'; rw [Rat.intCast_mul, Rat.intCast_ofNat] at this; exact this
  have hx : (4 * d / t : Rat) * t = ((4 * d : Int) : Rat) := by push_cast; grind
  have hlow : (1 / 10000 : Rat) ≤ 4 * d / t := by
    by_cases h : (1 / 10000 : Rat) ≤ 4 * d / t
    · exact h
    · exfalso
      have := Rat.mul_lt_mul_of_pos_right (Rat.not_le.mp h) htr
      push_cast at hx
      grind
  have hround := roundIf_eq (not_nearly_whole (4 * d / t) (4 * d) t ht (by omega) hx hlow)
  have hpos : (0 : Rat) < roundIfCloseEnough (4 * d / t) := by rw [hround]; grind
  obtain ⟨D, h1, h2⟩ := idiomatic_plain hpos
  unfold translateDuration
  rw [if_neg (by grind)]
  simp only [show ¬ (0 > 0) by omega, if_false]
  refine ⟨D, h1, ?_⟩
  rw [hround] at h2
  have e : 1 / (4 * d / t : Rat) = t / (4 * d) := by grind
  rcases h2 with h2 | ⟨r, n, hn, hr, hc, h2, j, hj⟩
  · rw [h2]; congr 1; grind
  · rw [e] at hj h2
    have := near_exact hd hd' hn hr hc hj
    subst this
    rw [h2]; congr 1; grind

theorem dotted_beats (d t : Int) (k : Nat) (hk : 0 < k) (hk' : k ≤ 5) (hd : 0 < d) (hd' : d ≤ 24) (ht : 0 < t) (ht' : t ≤ 40000 * d) :
    ∃ D, translateDuration d k t = some D ∧ D.toBeats = .ok (t / d) := by
  have hdr : (0 : Rat) < d := by exact_mod_cast hd
  have htr : (0 : Rat) < t := by exact_mod_cast ht
  have htr' : (t : Rat) ≤ 40000 * d := by have := Rat.intCast_le_intCast.mpr ht'; rw [Rat.intCast_mul, Rat.intCast_ofNat] at this; exact this
  unfold translateDuration
  rw [if_neg (by grind)]
  simp only [show k > 0 from hk, if_true]
  unfold idiomaticDuration
  simp only [show ¬ k = 0 by omega, if_false]
  obtain ⟨P, Q, hQ, hP, hPQ, hsmall, hdiv, hdots⟩ : ∃ P Q : Int, 0 < Q ∧ 0 < P ∧ Q ≤ P ∧ P ≤ 63 ∧ ((1 - (1 / 2 : Rat) ^ (k + 1)) / (1 / 2)) * Q = P ∧ (2 - (1 / 2 : Rat) ^ k) * Q = P := by
    have : k = 1 ∨ k = 2 ∨ k = 3 ∨ k = 4 ∨ k = 5 := by omega
    rcases this with e | e | e | e | e <;> subst e
    · exact ⟨3, 2, by decide +kernel⟩
    · exact ⟨7, 4, by decide +kernel⟩
    · exact ⟨15, 8, by decide +kernel⟩
    · exact ⟨31, 16, by decide +kernel⟩
    · exact ⟨63, 32, by decide +kernel⟩
  generalize (1 - (1 / 2 : Rat) ^ (k + 1)) / (1 / 2) = v at hdiv
  have hQr : (0 : Rat) < Q := by exact_mod_cast hQ
  have hPr : (0 : Rat) < P := by exact_mod_cast hP
  have hPQr : (Q : Rat) ≤ P := by exact_mod_cast hPQ
  have hv : v = P / Q := by grind
  subst hv
  have hx : (4 * d / (t / (P / Q)) : Rat) * ((Q * t : Int) : Rat) = ((4 * d * P : Int) : Rat) := by push_cast; grind
  have hlow : (1 / 10000 : Rat) ≤ 4 * d / (t / (P / Q)) := by
    by_cases h : (1 / 10000 : Rat) ≤ 4 * d / (t / (P / Q))
    · exact h
    · exfalso
      have hqt : (0 : Rat) < Q * t := Rat.mul_pos hQr htr
      have h1 := Rat.mul_lt_mul_of_pos_right (Rat.not_le.mp h) hqt
      push_cast at hx
      rw [hx] at h1
      have h2 := Rat.mul_le_mul_of_nonneg_left htr' (Rat.le_of_lt hQr)
      have h3 := Rat.mul_le_mul_of_nonneg_left hPQr (Rat.le_of_lt hdr)
      grind
  have h9 : 4 * d * P < 9999 := by
    have h1 : d * P ≤ 24 * P := Int.mul_le_mul_of_nonneg_right hd' (by omega)
    have : 4 * d * P = 4 * (d * P) := Int.mul_assoc ..
    omega
  rw [roundIf_eq (not_nearly_whole _ (4 * d * P) (Q * t) (Int.mul_pos hQ ht) h9 hx hlow)]
  refine ⟨_, rfl, ?_⟩
  have hne : (4 * d / (t / (P / Q)) : Rat) ≠ 0 := by grind
  simp only [Dur.toBeats, Dur.toBeatsFrom, DurComp.toBeats, noteLengthBeats, if_neg hne]
  congr 1
  generalize (2 - (1 / 2 : Rat) ^ k) = w at hdots
  have hw : w = P / Q := by grind
  subst hw
  grind

/-- C43: in a score with up to 24 divisions per quarter note, a note of `t` divisions with up to five dots lasts exactly `t/d` beats, at every tempo. Missing: more divisions
(see the witnesses below), and notes longer than ten thousand whole notes (see `c43_hang_witness`). -/
theorem c43_partial (d t : Int) (dots : Nat) (hd : 1 ≤ d) (hd' : d ≤ 24) (ht : 1 ≤ t) (ht' : t ≤ 40000 * d) (hk : dots ≤ 5) :
    ∃ D, translateDuration (divisionsOf d) dots t = some D ∧ ∀ tempo : Rat, tempo ≠ 0 → D.toMs tempo = some (t / d * (60000 / tempo)) := by
  have e : divisionsOf d = d := by unfold divisionsOf; omega
  rw [e]
  obtain ⟨D, h1, h2⟩ : ∃ D, translateDuration d dots t = some D ∧ D.toBeats = .ok (t / d) := by
    cases dots with
    | zero => exact plain_beats d t (by omega) hd' (by omega) ht'
    | succ k => exact dotted_beats d t (k + 1) (by omega) hk (by omega) hd' (by omega) ht'
  exact ⟨D, h1, fun tempo hT => beats_ms hT h2⟩

/-- The case of a triplet quarter note and of a dotted half note in a score with 12 divisions. -/
example : (translateDuration 12 0 8).map Dur.toBeats = some (.ok (2 / 3)) ∧ (translateDuration 12 1 36).map Dur.toBeats = some (.ok 3) := by decide +kernel

theorem inv_close {a b e : Rat} (ha : 1 ≤ a) (he : 0 < e) (he' : e ≤ 1 / 100) (h : (b - a).abs < e) : (1 / a - 1 / b).abs < 11 / 10 * e := by
  obtain ⟨h1, h2⟩ := abs_lt_iff h
  have hb : 99 / 100 < b := by grind
  have hab : 99 / 100 ≤ a * b := by
    have := Rat.mul_le_mul_of_nonneg_right ha (show 0 ≤ b by grind)
    grind
  have e0 : (1 / a - 1 / b) * (a * b) = b - a := by grind
  generalize 1 / a - 1 / b = z at e0
  unfold Rat.abs
  split
  · by_cases hz : z < 11 / 10 * e
    · exact hz
    · exfalso
      have l1 := Rat.mul_le_mul_of_nonneg_right (Rat.not_lt.mp hz) (show 0 ≤ a * b by grind)
      have l2 := Rat.mul_le_mul_of_nonneg_left hab (show 0 ≤ 11 / 10 * e by grind)
      grind
  · by_cases hz : -z < 11 / 10 * e
    · exact hz
    · exfalso
      have l1 := Rat.mul_le_mul_of_nonneg_right (Rat.not_lt.mp hz) (show 0 ≤ a * b by grind)
      have l2 := Rat.mul_le_mul_of_nonneg_left hab (show 0 ≤ 11 / 10 * e by grind)
      grind

/-- C43, every number of divisions up to 127 and every duration, no dots: the note lasts `t/d` beats up to a twentieth of a beat. -/
theorem c43_close (d : Int) (t : Rat) (hd : 1 ≤ d) (hd' : d ≤ 127) (ht : 0 < t) (ht' : t ≤ 40000 * d) :
    ∃ D q, translateDuration (divisionsOf d) 0 t = some D ∧ (q - t / d).abs < 1 / 20 ∧ ∀ tempo : Rat, tempo ≠ 0 → D.toMs tempo = some (q * (60000 / tempo)) := by
  have e : divisionsOf d = d := by unfold divisionsOf; omega
  rw [e]
  have hdr : (0 : Rat) < d := by exact_mod_cast (show 0 < d by omega)
  have hx : (4 * d / t : Rat) * t = 4 * d := by grind
  have hlow : (1 / 10000 : Rat) ≤ 4 * d / t := by
    by_cases h : (1 / 10000 : Rat) ≤ 4 * d / t
    · exact h
    · exfalso
      have := Rat.mul_lt_mul_of_pos_right (Rat.not_le.mp h) ht
      grind
  have hround : 0 < roundIfCloseEnough (4 * d / t) ∧ (1 / roundIfCloseEnough (4 * d / t) - 1 / (4 * d / t)).abs < 2 / 10000 := by
    rcases roundIf_cases (4 * d / t) with h | ⟨m, h, hm⟩
    · rw [h]; exact ⟨by grind, by rw [Rat.sub_self]; decide +kernel⟩
    · rw [h]
      obtain ⟨a, b⟩ := abs_lt_iff hm
      have hm1 : 1 ≤ m := by
        rcases Int.lt_or_le 0 m with h | h
        · omega
        · exfalso
          have : (m : Rat) ≤ 0 := by exact_mod_cast h
          grind
      have hm1r : (1 : Rat) ≤ m := by exact_mod_cast hm1
      have := inv_close hm1r (by decide +kernel) (by decide +kernel) hm
      exact ⟨by grind, by grind⟩
  obtain ⟨hpos, hcl⟩ := hround
  obtain ⟨D, h1, h2⟩ := idiomatic_plain hpos
  unfold translateDuration
  rw [if_neg (by grind)]
  simp only [show ¬ (0 > 0) by omega, if_false]
  have ed : t / d = 4 * (1 / (4 * d / t)) := by grind
  rw [ed]
  obtain ⟨c1, c2⟩ := abs_lt_iff hcl
  have habs : ∀ z y : Rat, -y < z → z < y → z.abs < y := by intro z y a b; unfold Rat.abs; split <;> grind
  rcases h2 with h2 | ⟨r, n, hn, hr, hc, h2, j, hj⟩
  · exact ⟨D, _, h1, habs _ _ (by grind) (by grind), fun tempo hT => beats_ms hT h2⟩
  · obtain ⟨d1, d2⟩ := abs_lt_iff (inv_close (normal_pos hn).1 (by decide +kernel) (by decide +kernel) hc)
    exact ⟨D, _, h1, habs _ _ (by grind) (by grind), fun tempo hT => beats_ms hT h2⟩

/-- The case of 26 divisions. -/
example : (translateDuration (divisionsOf 26) 0 33).map Dur.toBeats = some (.ok (33 / 26)) := by decide +kernel

/-- C43 is false in general: with 26 divisions per quarter note, a note of 105 divisions becomes a whole note (104 divisions). -/
theorem c43_tolerance_witness : (translateDuration (divisionsOf 26) 0 105).map Dur.toBeats = some (.ok 4) ∧ (105 : Rat) / 26 ≠ 4 := by decide +kernel

/-- More than 127 divisions are taken for 127: with the usual 480 divisions per quarter note, a quarter note becomes 480/127 beats long. -/
theorem c43_divisions_witness : divisionsOf 480 = 127 ∧ (translateDuration (divisionsOf 480) 0 480).map Dur.toBeats = some (.ok (480 / 127)) := by decide +kernel

/-- With no divisions (what an unreadable number of divisions is taken for), and for a note longer than ten thousand whole notes, the importer does not return. -/
theorem c43_hang_witness : translateDuration 0 0 1 = none ∧ translateDuration (divisionsOf 1) 0 40001 = none := by decide +kernel

end Alda
