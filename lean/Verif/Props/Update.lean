import Verif.Spec.Update
import Verif.Props.Lisp
/-!
C63: `alda update` either installs the new version or leaves a working one.
-/
namespace Alda.Update
open Spec

/-! ### Names -/

theorem strip_eq (p : List Char) : ∀ s r, strip p s = some r ↔ s = p ++ r := by
  induction p with
  | nil => intro s r; simp [strip]
  | cons c p ih =>
    intro s r
    cases s with
    | nil => simp [strip]
    | cons d s =>
      simp only [strip, List.cons_append, List.cons.injEq]
      split
      · rename_i h; subst h; rw [ih]; simp
      · rename_i h; constructor
        · intro h'; cases h'
        · rintro ⟨h', _⟩; exact absurd h'.symm h

theorem digit_iff (c : Char) : isDigit c = true ↔ c ∈ digits := by
  simp only [isDigit, digits, Bool.and_eq_true, decide_eq_true_eq, List.mem_cons, List.not_mem_nil, or_false]
  constructor
  · rintro ⟨h1, h2⟩
    have h1 : '0'.toNat ≤ c.toNat := h1
    have h2 : c.toNat ≤ '9'.toNat := h2
    have h3 : c = Char.ofNat c.toNat := (Char.ofNat_toNat c).symm
    have h4 : c.toNat = 48 ∨ c.toNat = 49 ∨ c.toNat = 50 ∨ c.toNat = 51 ∨ c.toNat = 52 ∨ c.toNat = 53 ∨ c.toNat = 54 ∨ c.toNat = 55 ∨ c.toNat = 56 ∨ c.toNat = 57 := by
      have : '0'.toNat = 48 := rfl
      have : '9'.toNat = 57 := rfl
      omega
    rcases h4 with h | h | h | h | h | h | h | h | h | h <;> rw [h] at h3 <;> rw [h3] <;> decide
  · rintro (rfl | rfl | rfl | rfl | rfl | rfl | rfl | rfl | rfl | rfl) <;> decide

theorem mem_afterDigits (s r : List Char) : r ∈ afterDigits s ↔ ∃ t, t ≠ [] ∧ AllDigits t ∧ s = t ++ r := by
  induction s with
  | nil =>
    simp only [afterDigits, List.not_mem_nil, false_iff]
    rintro ⟨t, ht, _, h⟩
    exact ht (List.append_eq_nil_iff.1 h.symm).1
  | cons c s ih =>
    simp only [afterDigits]
    split
    · rename_i hc
      rw [List.mem_cons, ih]
      constructor
      · rintro (rfl | ⟨t, ht, hd, rfl⟩)
        · exact ⟨[c], by simp, fun d hd => by rw [List.mem_singleton.1 hd]; exact (digit_iff c).1 hc, rfl⟩
        · exact ⟨c :: t, by simp, fun d hd' => (List.mem_cons.1 hd').elim (fun h => h ▸ (digit_iff c).1 hc) (hd d), rfl⟩
      · rintro ⟨t, ht, hd, h⟩
        cases t with
        | nil => exact absurd rfl ht
        | cons e t =>
          simp only [List.cons_append, List.cons.injEq] at h
          cases t with
          | nil => exact Or.inl h.2.symm
          | cons e' t => exact Or.inr ⟨e' :: t, by simp, fun d hd' => hd d (List.mem_cons_of_mem _ hd'), h.2⟩
    · rename_i hc
      constructor
      · intro h; cases h
      · rintro ⟨t, ht, hd, h⟩
        cases t with
        | nil => exact absurd rfl ht
        | cons e t =>
          simp only [List.cons_append, List.cons.injEq] at h
          exact absurd ((digit_iff c).2 (h.1 ▸ hd e (List.mem_cons_self ..))) hc

theorem mem_afterOptional (p s r : List Char) : r ∈ afterOptional p s ↔ s = p ++ r ∨ s = r := by
  simp only [afterOptional, List.mem_append, Option.mem_toList, strip_eq, List.mem_singleton]
  constructor
  · rintro (h | h)
    · exact Or.inl h
    · exact Or.inr h.symm
  · rintro (h | h)
    · exact Or.inl h
    · exact Or.inr h.symm

theorem any_strip (p s : List Char) (f : List Char → Bool) : (strip p s).any f = true ↔ ∃ r, s = p ++ r ∧ f r = true := by
  rw [Option.any_eq_true]
  constructor
  · rintro ⟨r, h, hf⟩; exact ⟨r, (strip_eq p s r).1 h, hf⟩
  · rintro ⟨r, h, hf⟩; exact ⟨r, (strip_eq p s r).2 h, hf⟩

theorem matchesHere_iff (s : List Char) : matchesHere s = true ↔ ∃ name rest, OldVersion name ∧ s = name ++ rest := by
  simp only [matchesHere, any_strip, List.any_eq_true, mem_afterOptional, mem_afterDigits, Option.isSome_iff_exists, strip_eq]
  constructor
  · rintro ⟨s1, rfl, s2, h2, s3, h3, s4, rfl, s5, ⟨t, ht, htd, rfl⟩, s6, rfl, s7, ⟨r, hr, hrd, rfl⟩, rest, rfl⟩
    have key : ∀ base ∈ executables, ∃ name rest', OldVersion name ∧
        base ++ (".".toList ++ (t ++ (".".toList ++ (r ++ (".old".toList ++ rest))))) = name ++ rest' := by
      intro base hb
      refine ⟨base ++ '.' :: (t ++ '.' :: (r ++ ".old".toList)), rest, ⟨base, hb, t, r, ht, htd, hr, hrd, rfl⟩, ?_⟩
      simp [List.append_assoc]
    rcases h2 with rfl | rfl <;> rcases h3 with rfl | rfl
    · obtain ⟨n, r', h, h'⟩ := key "alda-player.exe".toList (by decide); exact ⟨n, r', h, by rw [← h']; simp⟩
    · obtain ⟨n, r', h, h'⟩ := key "alda-player".toList (by decide); exact ⟨n, r', h, by rw [← h']; simp⟩
    · obtain ⟨n, r', h, h'⟩ := key "alda.exe".toList (by decide); exact ⟨n, r', h, by rw [← h']; simp⟩
    · obtain ⟨n, r', h, h'⟩ := key "alda".toList (by decide); exact ⟨n, r', h, by rw [← h']⟩
  · rintro ⟨name, rest, ⟨base, hb, t, r, ht, htd, hr, hrd, rfl⟩, rfl⟩
    simp only [executables, List.mem_cons, List.not_mem_nil, or_false] at hb
    have fin : ∀ s, s = '.' :: (t ++ '.' :: (r ++ (".old".toList ++ rest))) → ∃ r_1, s = ".".toList ++ r_1 ∧ ∃ x, (∃ t, t ≠ [] ∧ AllDigits t ∧ r_1 = t ++ x) ∧
        ∃ r, x = ".".toList ++ r ∧ ∃ x, (∃ t, t ≠ [] ∧ AllDigits t ∧ r = t ++ x) ∧ ∃ a, x = ".old".toList ++ a := by
      rintro s rfl
      exact ⟨t ++ '.' :: (r ++ (".old".toList ++ rest)), rfl, '.' :: (r ++ (".old".toList ++ rest)), ⟨t, ht, htd, rfl⟩, r ++ (".old".toList ++ rest), rfl,
        ".old".toList ++ rest, ⟨r, hr, hrd, rfl⟩, rest, rfl⟩
    rcases hb with rfl | rfl | rfl | rfl
    · exact ⟨_, by simp [List.append_assoc]; rfl, _, Or.inr rfl, _, Or.inr rfl, fin _ (by simp)⟩
    · exact ⟨"-player".toList ++ '.' :: (t ++ '.' :: (r ++ (".old".toList ++ rest))), by simp, _, Or.inl rfl, _, Or.inr rfl, fin _ rfl⟩
    · exact ⟨".exe".toList ++ '.' :: (t ++ '.' :: (r ++ (".old".toList ++ rest))), by simp, _, Or.inr rfl, _, Or.inl rfl, fin _ rfl⟩
    · exact ⟨"-player".toList ++ (".exe".toList ++ '.' :: (t ++ '.' :: (r ++ (".old".toList ++ rest)))), by simp, _, Or.inl rfl, _, Or.inl rfl, fin _ rfl⟩

/-- C63: exactly the names that contain the name of an old version are taken for old versions. -/
theorem c63_renamed (s : List Char) : isRenamedExecutable s = true ↔ ∃ before name after, OldVersion name ∧ s = before ++ name ++ after := by
  induction s with
  | nil =>
    simp only [isRenamedExecutable, matchesHere_iff]
    constructor
    · rintro ⟨n, r, h, h'⟩; exact ⟨[], n, r, h, by simpa using h'⟩
    · rintro ⟨b, n, r, h, h'⟩
      have h1 := List.append_eq_nil_iff.1 h'.symm
      have h2 := List.append_eq_nil_iff.1 h1.1
      exact ⟨n, [], h, by simp [h2.2]⟩
  | cons c s ih =>
    simp only [isRenamedExecutable, Bool.or_eq_true, matchesHere_iff, ih]
    constructor
    · rintro (⟨n, r, h, h'⟩ | ⟨b, n, r, h, h'⟩)
      · exact ⟨[], n, r, h, by simpa using h'⟩
      · exact ⟨c :: b, n, r, h, by rw [h']; simp⟩
    · rintro ⟨b, n, r, h, h'⟩
      cases b with
      | nil => exact Or.inl ⟨n, r, h, by simpa using h'⟩
      | cons e b =>
        simp only [List.cons_append, List.cons.injEq] at h'
        exact Or.inr ⟨b, n, r, h, h'.2⟩

theorem allDigits_toDigits (n : Nat) : AllDigits (Nat.toDigits 10 n) := by
  intro c hc
  have h := Nat.isDigit_of_mem_toDigits (by decide : 0 < 10) (by decide : 10 ≤ 10) hc
  apply (digit_iff c).1
  simpa [Char.isDigit, isDigit, Char.le_def, UInt32.le_iff_toNat_le] using h

theorem renamed_old (base : Name) (t r : Nat) : OldVersionOf base (renamedExecutable base t r) :=
  ⟨_, _, Nat.toDigits_ne_nil, allDigits_toDigits t, Nat.toDigits_ne_nil, allDigits_toDigits r, rfl⟩

theorem old_last {base name : Name} (h : OldVersionOf base name) : name.getLast? = some 'd' := by
  obtain ⟨t, r, _, _, _, _, rfl⟩ := h
  have : base ++ '.' :: (t ++ '.' :: (r ++ ".old".toList)) = (base ++ '.' :: (t ++ '.' :: (r ++ ".ol".toList))) ++ ['d'] := by simp
  rw [this, List.getLast?_concat]

theorem old_not_executable {base name : Name} (h : OldVersionOf base name) : name ∉ executables := by
  intro hn
  have hl := old_last h
  have : ∀ n ∈ executables, n.getLast? ≠ some 'd' := by decide
  exact this name hn hl

theorem old_unique {b b' name : Name} (hb : b ∈ executables) (hb' : b' ∈ executables) (h : OldVersionOf b name) (h' : OldVersionOf b' name) : b = b' := by
  obtain ⟨t, r, ht, htd, hr, hrd, rfl⟩ := h
  obtain ⟨t', r', ht', htd', hr', hrd', he⟩ := h'
  have hne : ∀ c ∈ digits, c ≠ 'e' ∧ c ≠ '-' := by decide
  cases t with
  | nil => exact absurd rfl ht
  | cons c t =>
  cases t' with
  | nil => exact absurd rfl ht'
  | cons c' t' =>
  have hc := hne c (htd c (List.mem_cons_self ..))
  have hc' := hne c' (htd' c' (List.mem_cons_self ..))
  simp only [executables, List.mem_cons, List.not_mem_nil, or_false] at hb hb'
  rcases hb with rfl | rfl | rfl | rfl <;> rcases hb' with rfl | rfl | rfl | rfl <;> simp at he ⊢ <;>
    first
    | exact absurd he.1 hc.1
    | exact absurd he.1.symm hc'.1

/-! ### Installing -/

theorem put_same (d : Dir) (n : Name) (f : Option File) : d.put n f n = f := by simp [Dir.put]

theorem put_other (d : Dir) {n m : Name} (f : Option File) (h : m ≠ n) : d.put n f m = d m := by simp [Dir.put, h]

/-- What renaming to the name of an old version does. -/
theorem rename_effect (d : Dir) (base old : Name) :
    (∀ n, n ≠ base → n ≠ old → d.rename base old n = d n) ∧ (∀ f, d base = some f → d.rename base old old = some f) := by
  constructor
  · intro n h1 h2
    unfold Dir.rename
    cases d base with
    | none => rfl
    | some f => simp only; rw [put_other _ _ h2, put_other _ _ h1]
  · intro f hf
    unfold Dir.rename
    rw [hf]
    exact put_same ..

theorem install_effect {a : Asset} (hn : a.name ∈ executables) (hx : a.executable = true) (f : Faults) (d : Dir) :
    ((installAsset a f d).1 = true → (installAsset a f d).2 a.name = some ⟨a.content, true⟩) ∧
    (∀ n, n ≠ a.name → ¬ OldVersionOf a.name n → (installAsset a f d).2 n = d n) ∧
    (∀ file, d a.name = some file → (installAsset a f d).2 a.name = some file ∨ ∃ n, OldVersionOf a.name n ∧ (installAsset a f d).2 n = some file) := by
  have hold := renamed_old a.name f.time f.random
  have hne : renamedExecutable a.name f.time f.random ≠ a.name := fun h => old_not_executable hold (by rw [h]; exact hn)
  obtain ⟨r1, r2⟩ := rename_effect d a.name (renamedExecutable a.name f.time f.random)
  have other : ∀ (x : Option File) n, n ≠ a.name → ¬ OldVersionOf a.name n →
      ((d.rename a.name (renamedExecutable a.name f.time f.random)).put a.name x) n = d n := by
    intro x n h1 h2
    rw [put_other _ _ h1]
    exact r1 n h1 (fun h => h2 (h ▸ hold))
  have kept : ∀ (x : Option File) file, d a.name = some file →
      ∃ n, OldVersionOf a.name n ∧ ((d.rename a.name (renamedExecutable a.name f.time f.random)).put a.name x) n = some file :=
    fun x file h => ⟨_, hold, by rw [put_other _ _ hne]; exact r2 file h⟩
  have same : ∀ b, (b = true → False) → (b = true → d a.name = some ⟨a.content, true⟩) := fun b h h' => (h h').elim
  unfold installAsset
  simp only [hx, Bool.not_true, Bool.false_eq_true, if_false]
  split
  · exact ⟨by simp, fun _ _ _ => rfl, fun _ h => Or.inl h⟩
  split
  · exact ⟨by simp, fun _ _ _ => rfl, fun _ h => Or.inl h⟩
  split
  · exact ⟨by simp, fun n h1 h2 => r1 n h1 (fun h => h2 (h ▸ hold)), fun file h => Or.inr ⟨_, hold, r2 file h⟩⟩
  split
  · exact ⟨by simp, fun n h1 h2 => r1 n h1 (fun h => h2 (h ▸ hold)), fun file h => Or.inr ⟨_, hold, r2 file h⟩⟩
  split
  · exact ⟨by simp, other _, fun file h => Or.inr (kept _ file h)⟩
  split
  · exact ⟨by simp, other _, fun file h => Or.inr (kept _ file h)⟩
  · exact ⟨fun _ => put_same .., other _, fun file h => Or.inr (kept _ file h)⟩

theorem Release.tail {x : Asset × Faults} {rest : List (Asset × Faults)} (h : Release (x :: rest)) :
    Release rest ∧ ∀ y ∈ rest, y.1.name ≠ x.1.name := by
  obtain ⟨h1, h2⟩ := h
  rw [List.map_cons, List.nodup_cons] at h2
  exact ⟨⟨fun y hy => h1 y (List.mem_cons_of_mem _ hy), h2.2⟩, fun y hy he => h2.1 (he ▸ List.mem_map.2 ⟨y, hy, rfl⟩)⟩

/-- C63: whatever happens, no file is touched but the executables of the release and the old versions that they are renamed to. -/
theorem c63_others (assets : List (Asset × Faults)) (hr : Release assets) (downloaded : Bool) (d : Dir) (n : Name)
    (h1 : ∀ a ∈ assets, n ≠ a.1.name ∧ ¬ OldVersionOf a.1.name n) : (downloadAndInstall downloaded assets d).2 n = d n := by
  unfold downloadAndInstall
  split
  · rename_i hd
    clear hd
    induction assets generalizing d with
    | nil => rfl
    | cons x rest ih =>
      obtain ⟨hn, hx⟩ := hr.1 x (List.mem_cons_self ..)
      have he := (install_effect hn hx x.2 d).2.1 n (h1 x (List.mem_cons_self ..)).1 (h1 x (List.mem_cons_self ..)).2
      have hi := fun d => ih hr.tail.1 d (fun a ha => h1 a (List.mem_cons_of_mem _ ha))
      obtain ⟨a, f⟩ := x
      simp only [installAssets] at he ⊢
      rcases hia : installAsset a f d with ⟨b, d'⟩
      rw [hia] at he
      cases b with
      | false => exact he
      | true => simp only; rw [hi d']; exact he
  · rfl

/-- C63: if the update succeeds then all the executables of the release are installed, and may be executed. -/
theorem c63_installed (assets : List (Asset × Faults)) (hr : Release assets) (downloaded : Bool) (d : Dir)
    (hok : (downloadAndInstall downloaded assets d).1 = true) :
    ∀ a ∈ assets, (downloadAndInstall downloaded assets d).2 a.1.name = some ⟨a.1.content, true⟩ := by
  cases downloaded with
  | false => simp [downloadAndInstall] at hok
  | true =>
    simp only [downloadAndInstall, if_true] at hok ⊢
    induction assets generalizing d with
    | nil => intro a ha; cases ha
    | cons x rest ih =>
      obtain ⟨hn, hx⟩ := hr.1 x (List.mem_cons_self ..)
      have he := (install_effect hn hx x.2 d).1
      obtain ⟨a, f⟩ := x
      simp only [installAssets] at hok he ⊢
      rcases hia : installAsset a f d with ⟨b, d'⟩
      rw [hia] at he hok
      cases b with
      | false => simp at hok
      | true =>
        simp only at hok ⊢ he
        intro y hy
        rcases List.mem_cons.1 hy with rfl | hy
        · have := c63_others rest hr.tail.1 true d' a.name (fun z hz => ⟨(hr.tail.2 z hz).symm, fun h => old_not_executable h hn⟩)
          simp only [downloadAndInstall, if_true] at this
          simp only
          rw [this]
          exact he trivial
        · exact ih hr.tail.1 d' hok y hy

/-- C63, in part: whatever goes wrong, the executables that were there before are still there: under their own names, or as old versions. Missing: that they are
under their own names. -/
theorem c63_kept_partial (assets : List (Asset × Faults)) (hr : Release assets) (downloaded : Bool) (d : Dir) :
    ∀ base file, base ∈ executables → d base = some file →
      ∃ n, (n = base ∨ OldVersionOf base n) ∧ (downloadAndInstall downloaded assets d).2 n = some file := by
  intro base file hbase hfile
  cases downloaded with
  | false => exact ⟨base, Or.inl rfl, hfile⟩
  | true =>
    simp only [downloadAndInstall, if_true]
    -- wherever the file is, it stays while nothing of that name is installed
    have stay : ∀ (assets : List (Asset × Faults)) (d : Dir) n, Release assets → (∀ a ∈ assets, a.1.name ≠ base) → (n = base ∨ OldVersionOf base n) → d n = some file →
        (installAssets assets d).2 n = some file := by
      intro assets d n hr hne hn hd
      have := c63_others assets hr true d n (fun a ha => ⟨?_, ?_⟩)
      · simp only [downloadAndInstall, if_true] at this
        rw [this, hd]
      · rintro rfl
        rcases hn with hn | hn
        · exact hne a ha hn
        · exact old_not_executable hn (hr.1 a ha).1
      · intro ho
        rcases hn with rfl | hn
        · exact old_not_executable ho hbase
        · exact hne a ha (old_unique (hr.1 a ha).1 hbase ho hn)
    induction assets generalizing d with
    | nil => exact ⟨base, Or.inl rfl, hfile⟩
    | cons x rest ih =>
      obtain ⟨hn, hx⟩ := hr.1 x (List.mem_cons_self ..)
      obtain ⟨_, e2, e3⟩ := install_effect hn hx x.2 d
      by_cases hb : x.1.name = base
      · have h3 := e3 file (hb ▸ hfile)
        have : ∃ n, (n = base ∨ OldVersionOf base n) ∧ (installAsset x.1 x.2 d).2 n = some file := by
          rcases h3 with h | ⟨n, h, h'⟩
          · exact ⟨x.1.name, Or.inl hb, h⟩
          · exact ⟨n, Or.inr (hb ▸ h), h'⟩
        obtain ⟨n, h1, h2⟩ := this
        refine ⟨n, h1, ?_⟩
        obtain ⟨a, f⟩ := x
        simp only [installAssets] at h2 ⊢
        rcases hia : installAsset a f d with ⟨b, d'⟩
        rw [hia] at h2
        cases b with
        | false => exact h2
        | true => exact stay rest d' n hr.tail.1 (fun y hy => by rw [← hb]; exact hr.tail.2 y hy) h1 h2
      · have h2 := e2 base (Ne.symm hb) (fun h => old_not_executable h hbase)
        obtain ⟨a, f⟩ := x
        simp only [installAssets] at h2 ⊢
        rcases hia : installAsset a f d with ⟨b, d'⟩
        rw [hia] at h2
        cases b with
        | false => exact ⟨base, Or.inl rfl, by rw [h2]; exact hfile⟩
        | true => exact ih hr.tail.1 d' (Eq.trans h2 hfile)

/-- C63: without a complete download nothing is changed. -/
theorem c63_no_download (assets : List (Asset × Faults)) (d : Dir) : downloadAndInstall false assets d = (false, d) := rfl

/-- C63, in part: the next command removes the old versions that can be removed, and nothing else, as long as no other name contains the name of an old version. -/
theorem c63_cleanup_partial (removable : Name → Bool) (d : Dir) (n : Name) :
    (OldVersion n → removable n = true → cleanUp removable d n = none) ∧
    ((¬ ∃ before name after, OldVersion name ∧ n = before ++ name ++ after) → cleanUp removable d n = d n) := by
  constructor
  · intro h hr
    have : isRenamedExecutable n = true := (c63_renamed n).2 ⟨[], n, [], h, by simp⟩
    simp [cleanUp, this, hr]
  · intro h
    have : isRenamedExecutable n = false := by
      rw [← Bool.not_eq_true]; exact fun h' => h ((c63_renamed n).1 h')
    simp [cleanUp, this]

/-- C63: the executables themselves are never removed. -/
theorem c63_cleanup_executables (removable : Name → Bool) (d : Dir) (n : Name) (h : n ∈ executables) : cleanUp removable d n = d n := by
  have : ∀ n ∈ executables, isRenamedExecutable n = false := by decide +kernel
  simp [cleanUp, this n h]

/-! ### Cases that meet the hypotheses, and what goes wrong -/

/-- A directory with both executables and another program. -/
def sampleDir : Dir := fun n =>
  if n = "alda".toList then some ⟨[1], true⟩ else if n = "alda-player".toList then some ⟨[2], true⟩ else if n = "ls".toList then some ⟨[3], true⟩ else none

/-- A release with both executables. -/
def sampleRelease (fa fp : Faults) : List (Asset × Faults) :=
  [({ name := "alda".toList, content := [4, 4] }, fa), ({ name := "alda-player".toList, content := [5, 5] }, fp)]

theorem sampleRelease_ok (fa fp : Faults) : Release (sampleRelease fa fp) :=
  ⟨by intro a ha; simp only [sampleRelease, List.mem_cons, List.not_mem_nil, or_false] at ha; rcases ha with rfl | rfl <;> exact ⟨by simp [executables], rfl⟩,
    by show ["alda".toList, "alda-player".toList].Nodup; decide⟩

example : (downloadAndInstall true (sampleRelease { time := 17, random := 3 } { time := 17, random := 4 }) sampleDir).1 = true := by decide +kernel

example : (downloadAndInstall true (sampleRelease { time := 17, random := 3 } { time := 17, random := 4 }) sampleDir).2 "alda-player.17.4.old".toList = some ⟨[2], true⟩ := by
  decide +kernel

example : "alda-player.17.4.old".toList ∈ [renamedExecutable "alda-player".toList 17 4] ∧ sampleDir "alda-player".toList = some ⟨[2], true⟩ := by decide +kernel

example : OldVersion "alda.1615061099.2081.old".toList ∧ "alda".toList ∈ executables ∧ isRenamedExecutable "aldaplayer.1.2.old".toList = false := by
  refine ⟨⟨"alda".toList, by decide, "1615061099".toList, "2081".toList, ?_⟩, by decide, by decide +kernel⟩
  exact ⟨by decide, by unfold AllDigits; decide, by decide, by unfold AllDigits; decide, by decide⟩

/-- C63 fails: if the new file cannot be created after the old one has been renamed (say the disk is full), there is no `alda` any more. -/
theorem c63_unusable_witness : ∃ (assets : List (Asset × Faults)) (d : Dir), Release assets ∧ d "alda".toList = some ⟨[1], true⟩ ∧
    (downloadAndInstall true assets d).1 = false ∧ (downloadAndInstall true assets d).2 "alda".toList = none :=
  ⟨sampleRelease { create := true, time := 17, random := 3 } { time := 17, random := 4 }, sampleDir, sampleRelease_ok .., by decide +kernel, by decide +kernel, by decide +kernel⟩

/-- C63 fails: if the new `alda` has been installed and the new player has not, the next command removes the last copy of the player. -/
theorem c63_lost_witness : ∃ (assets : List (Asset × Faults)) (d : Dir), Release assets ∧ d "alda-player".toList = some ⟨[2], true⟩ ∧
    (downloadAndInstall true assets d).2 "alda".toList = some ⟨[4, 4], true⟩ ∧
    ∀ n, (n = "alda-player".toList ∨ OldVersion n) → cleanUp (fun _ => true) (downloadAndInstall true assets d).2 n = none := by
  refine ⟨sampleRelease { time := 17, random := 3 } { opening := true, time := 17, random := 4 }, sampleDir, sampleRelease_ok .., by decide +kernel, by decide +kernel, ?_⟩
  rintro n (rfl | h)
  · decide +kernel
  · exact (c63_cleanup_partial _ _ n).1 h rfl

/-- C63 fails: the name is looked for anywhere in the name of a file, so a user's file that lies in the same directory is removed as well. -/
theorem c63_bystander_witness : ∃ n : Name, ¬ OldVersion n ∧ ∀ d : Dir, cleanUp (fun _ => true) d n = none := by
  refine ⟨"notes-alda.1.2.old.txt".toList, ?_, fun d => ?_⟩
  · rintro ⟨b, _, h⟩
    exact absurd (old_last h) (by decide)
  · have : isRenamedExecutable "notes-alda.1.2.old.txt".toList = true := by decide +kernel
    simp only [cleanUp, this, Bool.and_self, if_true]

end Alda.Update
