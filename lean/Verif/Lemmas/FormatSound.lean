import Verif.Lemmas.FormatLeaves
import Verif.Lemmas.FormatEvents
/-!
What the parser makes of the scanner's tokens is a well-formed tree: events.
-/
namespace Alda
namespace Syn
open Spec Tree

/-! ### Tokens of a text -/

/-- Every token ends on its line, or on the line where the newlines in its text lead. -/
def Lined (toks : List Token) : Prop := toks.Pairwise fun a b => a.pos.line + a.text.count '\n' ≤ b.pos.line

/-- What is known about the tokens of a text, or those of its end. -/
structure Scanned (toks : List Token) : Prop where
  ends : Ends toks
  lits : Lits toks
  lined : Lined toks

theorem Scanned.append {ts toks : List Token} (h : Scanned (ts ++ toks)) (he : Ends toks) : Scanned toks :=
  ⟨he, h.lits.right, (List.pairwise_append.1 h.lined).2.1⟩

theorem Scanned.tail {t : Token} {toks : List Token} (h : Scanned (t :: toks)) (ht : t.tok ≠ .eof) : Scanned toks :=
  h.append (ts := [t]) (h.ends.tail ht)

/-- The tokens that are left begin on a later line, or with the end of the file. -/
def Later (toks left : List Token) : Prop :=
  ∀ t ts u us, toks = t :: ts → left = u :: us → u.tok = .eof ∨ t.pos.line < u.pos.line

theorem later_broken {toks ts left : List Token} (h : toks = ts ++ left) (hl : Lined toks) (hb : Broken ts) : Later toks left := by
  subst h
  obtain ⟨x, hx, hn⟩ := hb
  intro t ts' u us h1 h2
  subst h2
  right
  obtain ⟨l1, _, l2⟩ := List.pairwise_append.1 hl
  have hu := l2 x hx u (by simp)
  have hc : 0 < x.text.count '\n' := List.count_pos_iff.2 hn
  cases ts with
  | nil => simp at hx
  | cons a as =>
    simp only [List.cons_append, List.cons.injEq] at h1
    obtain ⟨rfl, _⟩ := h1
    rcases List.mem_cons.1 hx with rfl | hx
    · omega
    · have := (List.pairwise_cons.1 l1).1 x hx
      omega

theorem later_trans {toks ts mid ms left : List Token} (h : toks = ts ++ mid) (hm : mid = ms ++ left) (he : Ends mid) (hn : Ends left)
    (hl : Lined toks) (h1 : Later toks mid) : Later toks left := by
  intro t ts' u us e1 e2
  cases ms with
  | nil => exact h1 t ts' u us e1 (by rw [hm, e2]; rfl)
  | cons m ms =>
    rw [List.cons_append] at hm
    rcases h1 t ts' m (ms ++ left) e1 hm with h2 | h2
    · rw [hm] at he
      have := he.eof h2
      simp only [List.append_eq_nil_iff] at this
      rw [this.2] at hn
      exact absurd hn Ends.not_nil
    · right
      have hp := (List.pairwise_append.1 (h ▸ hl)).2.1
      rw [hm, e2] at hp
      have := (List.pairwise_cons.1 hp).1 u (by simp)
      omega

theorem later_inner {toks ts mid left : List Token} (h : toks = ts ++ mid) (he : Ends mid) (hl : Lined toks) (h1 : Later mid left) : Later toks left := by
  intro t ts' u us e1 e2
  cases mid with
  | nil => exact absurd he Ends.not_nil
  | cons m ms =>
    refine (h1 m ms u us rfl e2).imp id fun h2 => ?_
    cases ts with
    | nil =>
      rw [List.nil_append, e1] at h
      injection h with h _
      rw [h]; exact h2
    | cons a as =>
      rw [e1, List.cons_append] at h
      injection h with h h'
      subst h
      rw [e1, h'] at hl
      have := (List.pairwise_cons.1 hl).1 m (by simp)
      omega

/-! ### Tokens that no event begins with -/

/-- What follows the name in the declaration of a part. -/
def Bad (R : List Token) : Prop := ∃ u us, R = u :: us ∧ (u.tok = .colon ∨ u.tok = .separator ∨ ∃ a, u.tok = .alias a)

theorem bad_loop {fuel : Nat} {loop : EventLoop} {R left : List Token} {ns : List Node} (h : Bad R)
    (he : events fuel loop R = .ok (ns, left)) : ns = [] ∧ left = R := by
  obtain ⟨⟨t, x, p⟩, us, rfl, hu⟩ := h
  have hi : ∀ f, ∃ e, innerEvent f (⟨t, x, p⟩ :: us) = .error e := by
    intro f
    cases f with
    | zero => exact ⟨_, rfl⟩
    | succ f => rcases hu with hu | hu | ⟨a, hu⟩ <;> (simp only at hu; subst hu; exact ⟨_, rfl⟩)
  cases fuel with
  | zero => simp [events] at he
  | succ f =>
    obtain ⟨e, hi⟩ := hi f
    simp only [events] at he
    cases loop with
    | varDef N =>
      by_cases hl : p.line = N
      · have hs : (EventLoop.varDef N).stop (⟨t, x, p⟩ :: us) = .ok none := by
          rcases hu with hu | hu | ⟨a, hu⟩ <;> (simp only at hu; subst hu; simp [EventLoop.stop, hl])
        rw [hs] at he
        simp only [hi] at he
        cases he
      · have hs : (EventLoop.varDef N).stop (⟨t, x, p⟩ :: us) = .ok (some (⟨t, x, p⟩ :: us)) := by
          rcases hu with hu | hu | ⟨a, hu⟩ <;> (simp only at hu; subst hu; simp [EventLoop.stop, hl])
        rw [hs] at he
        simp only at he
        cases he
        exact ⟨rfl, rfl⟩
    | _ =>
      rcases hu with hu | hu | ⟨a, hu⟩ <;>
        (simp only at hu; subst hu; simp [EventLoop.stop, looksLikePartDeclaration, hi] at he)

theorem bad_decorate {loop : EventLoop} {n : Node} {R : List Token} (h : Bad R) : loop.decorate n R = (n, R) := by
  obtain ⟨⟨t, x, p⟩, us, rfl, hu⟩ := h
  cases loop <;> rcases hu with hu | hu | ⟨a, hu⟩ <;> (simp only at hu; subst hu; rfl)

theorem decl_tokens {R : List Token} (h : looksLikePartDeclaration R = true) : ∃ x p us, R = ⟨.name, x, p⟩ :: us ∧ Bad us := by
  unfold looksLikePartDeclaration at h
  split at h
  · rename_i x p t us
    refine ⟨x, p, _, rfl, t, us, rfl, ?_⟩
    obtain ⟨t, y, q⟩ := t
    cases t <;> simp at h ⊢
  · simp at h

theorem decl_inner {x : List Char} {p : Pos} {us : List Token} (h : Bad us) (f : Nat) :
    innerEvent (f + 1) (⟨.name, x, p⟩ :: us) = .ok (leafNode .variableReference (.str (String.ofList x)), us) := by
  obtain ⟨⟨t, y, q⟩, us, rfl, hu⟩ := h
  rcases hu with hu | hu | ⟨a, hu⟩ <;> (simp only at hu; subst hu; rfl)

/-- After voices that are not ended, a loop is left, or fails; or it goes on to what no event can begin with. -/
theorem closers_loop {fuel : Nat} {loop : EventLoop} {R left : List Token} {ns : List Node} (h : Closers R)
    (he : events fuel loop R = .ok (ns, left)) : ns = [] ∨ Bad left := by
  cases fuel with
  | zero => simp [events] at he
  | succ f =>
    simp only [events] at he
    rcases h with ⟨⟨t, x, p⟩, us, rfl, hu⟩ | h
    · have hi : t ≠ .eof → ∃ e, innerEvent f (⟨t, x, p⟩ :: us) = .error e := by
        intro hn
        cases f with
        | zero => exact ⟨_, rfl⟩
        | succ f => rcases hu with hu | hu | hu <;> (simp only at hu; subst hu; first | exact absurd rfl hn | exact ⟨_, rfl⟩)
      cases hs : loop.stop (⟨t, x, p⟩ :: us) with
      | error e => rw [hs] at he; simp at he
      | ok o =>
        cases o with
        | some l =>
          rw [hs] at he; simp only at he; cases he
          exact .inl rfl
        | none =>
          rw [hs] at he
          have hn : t ≠ .eof := by
            rintro rfl
            cases loop <;> simp [EventLoop.stop] at hs
          obtain ⟨e, hi⟩ := hi hn
          simp only [hi] at he
          cases he
    · obtain ⟨x, p, us, rfl, hb⟩ := decl_tokens h
      cases hs : loop.stop (⟨.name, x, p⟩ :: us) with
      | error e => rw [hs] at he; simp at he
      | ok o =>
        cases o with
        | some l =>
          rw [hs] at he; simp only at he; cases he
          exact .inl rfl
        | none =>
          rw [hs] at he
          cases f with
          | zero => simp [innerEvent] at he
          | succ f =>
            simp only [decl_inner hb, bad_decorate hb] at he
            right
            cases hx : events (f + 1) loop us with
            | error e => rw [hx] at he; simp at he
            | ok r =>
              obtain ⟨ns', left'⟩ := r
              rw [hx] at he
              simp only at he
              cases he
              rw [(bad_loop hb hx).2]
              exact hb

/-- If a loop reads nothing, it leaves everything; except for the bracket. -/
theorem events_nil {fuel : Nat} {loop : EventLoop} {R left : List Token} (h1 : loop ≠ .seq) (h2 : loop ≠ .cram)
    (he : events fuel loop R = .ok ([], left)) : left = R := by
  cases fuel with
  | zero => simp [events] at he
  | succ f =>
    simp only [events] at he
    split at he
    · cases he
    · rename_i l hs
      cases he
      cases loop with
      | seq => exact absurd rfl h1
      | cram => exact absurd rfl h2
      | _ =>
        simp only [EventLoop.stop] at hs
        repeat' split at hs
        all_goals first | (cases hs; rfl) | cases hs
    · split at he
      · cases he
      · split at he
        · cases he
        · cases he

/-- Where the loop of a definition is left. -/
theorem varDef_left {fuel : Nat} {N : Nat} : ∀ {R left : List Token} {ns : List Node}, (3 * R.length + 1 ≤ fuel) → Scanned R → (∀ u ∈ R, N ≤ u.pos.line) →
    events fuel (.varDef N) R = .ok (ns, left) → ∀ u us, left = u :: us → u.tok = .eof ∨ N < u.pos.line := by
  induction fuel with
  | zero => intro R left ns _ _ _ h; simp [events] at h
  | succ f ih =>
    intro R left ns hf hS hN h u us hu
    have s := events_sound f R hS.ends
    simp only [events] at h
    split at h
    · cases h
    · rename_i l hs
      cases h
      simp only [EventLoop.stop] at hs
      split at hs
      · rename_i x p us'
        cases hs
        cases hu
        exact .inl rfl
      · rename_i v vs
        split at hs
        · cases hs
        · rename_i hne _
          cases hs
          cases hu
          have := hN u (by simp)
          right; omega
      · cases hs
    · split at h
      · cases h
      · rename_i n l1 hn
        simp only [EventLoop.decorate] at h
        split at h
        · cases h
        · rename_i ns' l2 h2
          cases h
          have a := s.1 (by omega)
          rw [hn] at a
          obtain ⟨ts, a1, ⟨a2, a3⟩, a4⟩ := a
          subst a1
          refine ih ?_ (hS.append a4) (fun u hu => hN u (List.mem_append_right _ hu)) h2 u us hu
          cases ts with
          | nil => exact absurd rfl a2
          | cons x xs => simp at hf ⊢; omega

/-! ### Nodes and trees -/

theorem durNodes_last (d : List Comp) (n : Node) (h : n.type ≠ .duration) : lastIsDuration (n :: durNodes d) = !d.isEmpty := by
  cases d with
  | nil => simp [durNodes, lastIsDuration, h]
  | cons c cs => simp [durNodes, lastIsDuration, branch, Node.type]

theorem ends_rest (d : List Comp) : lastIsDuration (durNodes d) = !d.isEmpty := by
  cases d with
  | nil => simp [durNodes, lastIsDuration]
  | cons c cs => simp [durNodes, lastIsDuration, branch, Node.type]

mutual
theorem Ev.endsInLength : ∀ (e : Ev), Spec.endsInLength e.node = e.tailDur
  | .note c accs d slur => by
    cases slur
    · simp only [Ev.node, branch, Spec.endsInLength, Ev.tailDur, Bool.false_eq_true, if_false, List.append_nil, Bool.not_false, Bool.and_true]
      exact durNodes_last d _ (by simp [Node.type])
    · simp [Ev.node, branch, Spec.endsInLength, Ev.tailDur, lastIsDuration, atom, Node.type, List.getLast?_append, List.getLast?_cons]
  | .rest d => ends_rest d
  | .chord es => lastEnds es
  | .cram es d => durNodes_last d _ (by simp [branch, Node.type])
  | .defn s es => lastEnds es
  | .up => rfl
  | .down => rfl
  | .oct _ => rfl
  | .bar => rfl
  | .marker _ => rfl
  | .at _ => rfl
  | .ref _ => rfl
  | .sexp _ => rfl
  | .seq _ => rfl
  | .voice _ _ => rfl
  | .voiceEnd => rfl
  | .group _ => rfl
  | .rep _ _ => rfl
  | .onReps _ _ => rfl
theorem lastEnds : ∀ (es : List Ev), Spec.lastEndsInLength (nodes es) = lastTail es
  | [] => rfl
  | [e] => Ev.endsInLength e
  | _ :: e :: es => lastEnds (e :: es)
end

theorem Ev.startsWithBarline (e : Ev) : Spec.startsWithBarline e.node = e.headBar := by
  induction e using Ev.rec (motive_2 := fun _ => True) with
  | onReps e rs ih => exact ih
  | nil => trivial
  | cons => trivial
  | _ => rfl

/-- What the parser's result for an event is like. -/
structure EvSound (toks : List Token) (n : Node) (left : List Token) (e : Ev) : Prop where
  node : n = e.node
  ok : Clean n → e.ok
  allowed : e.allowed .part = true
  close : e.open = true → Closers left
  later : e.oneLine = false → Later toks left
  group : ∀ vs, e = .group vs → ∃ k u us, toks = u :: us ∧ u.tok = .voiceMarker k
  fit : e.fit

theorem denotes_repeat {t : Token} {k : Int} (ht : t.tok = .repeat k) (h : t.tok ≠ .eof → Denotes t.tok t.text) : ∃ m : Nat, k = m ∧ m ≤ maxInt := by
  have h := h (by rw [ht]; simp)
  rw [ht] at h
  generalize t.text = tx at h
  cases h with
  | «repeat» j ds _ _ => exact clamp_nat _

theorem denotes_voice {t : Token} {k : Int} (ht : t.tok = .voiceMarker k) (h : t.tok ≠ .eof → Denotes t.tok t.text) : ∃ m : Nat, k = m ∧ m ≤ maxInt := by
  have h := h (by rw [ht]; simp)
  rw [ht] at h
  generalize t.text = tx at h
  cases h with
  | voiceMarker ds _ _ => exact clamp_nat _

theorem denotes_ranges {cs : List Char} {rs : List (Int × Int)} (h : RangesText cs rs) :
    ∃ ps : List (Nat × Nat), rs = ps.map (fun r => ((r.1 : Int), (r.2 : Int))) ∧ ps ≠ [] ∧ ∀ r ∈ ps, r.1 ≤ maxInt ∧ r.2 ≤ maxInt := by
  have key : ∀ cs r, RangeText cs r → ∃ a b : Nat, r = ((a : Int), (b : Int)) ∧ a ≤ maxInt ∧ b ≤ maxInt := by
    intro cs r h
    cases h with
    | one ds _ _ => obtain ⟨a, h1, h2⟩ := clamp_nat (decimal cs); exact ⟨a, a, by rw [h1], h2, h2⟩
    | two ds es _ _ _ _ =>
      obtain ⟨a, h1, h2⟩ := clamp_nat (decimal ds)
      obtain ⟨b, h3, h4⟩ := clamp_nat (decimal es)
      exact ⟨a, b, by rw [h1, h3], h2, h4⟩
  induction h with
  | last cs r h =>
    obtain ⟨a, b, h1, h2⟩ := key _ _ h
    exact ⟨[(a, b)], by simp [h1], by simp, by simpa using h2⟩
  | cons cs r more rs h _ ih =>
    obtain ⟨a, b, h1, h2⟩ := key _ _ h
    obtain ⟨ps, i1, i2, i3⟩ := ih
    refine ⟨(a, b) :: ps, by simp [h1, i1], by simp, ?_⟩
    intro r hr
    rcases List.mem_cons.1 hr with rfl | hr
    · exact h2
    · exact i3 r hr

theorem clean_rep {n : Node} {k : Int} (h : Clean (.mk .repeat .none [n, leafNode .times (.int k)])) : Clean n := by
  simp only [Clean, AllClean] at h
  exact h.2.2.1

/-- Something that may be repeated. -/
theorem rep_tree {toks ts mid left : List Token} {n n' : Node} {e : Ev} (h : toks = ts ++ mid) (hS : Scanned toks) (he : Ends mid)
    (hn : EvSound toks n mid e) (hr : ∀ k, e.mayRepeat k = true) (hx : singleOrRepeated n mid = (n', left)) : ∃ e', EvSound toks n' left e' := by
  unfold singleOrRepeated at hx
  split at hx
  · rename_i k x p mid
    cases hx
    obtain ⟨m, m1, m2⟩ := denotes_repeat (t := ⟨.repeat k, x, p⟩) rfl ((h ▸ hS).append he).lits.head
    subst m1
    refine ⟨.rep e m, ⟨by rw [hn.node]; rfl, fun hc => ⟨hn.ok (clean_rep hc), m2, hr m⟩, rfl, by simp [Ev.open], fun ho => ?_, by simp, hn.fit⟩⟩
    exact later_trans h (ms := [⟨.repeat m, x, p⟩]) rfl he (he.tail (by simp)) hS.lined (hn.later ho)
  · cases hx
    exact ⟨e, hn⟩

theorem bad_rep {n n' : Node} {mid left : List Token} (h : Bad mid) (hx : singleOrRepeated n mid = (n', left)) : Bad left := by
  obtain ⟨⟨t, x, p⟩, us, rfl, hu⟩ := h
  rcases hu with hu | hu | ⟨a, hu⟩ <;> (simp only at hu; subst hu; cases hx; refine ⟨_, us, rfl, ?_⟩; simp)

theorem bad_duration {R : List Token} (h : Bad R) : optionalDuration R = ([], R) := by
  obtain ⟨⟨t, x, p⟩, us, rfl, hu⟩ := h
  rcases hu with hu | hu | ⟨a, hu⟩ <;> (simp only at hu; subst hu; rfl)

/-- A note, a rest or a chord. -/
theorem notes_tree {toks left : List Token} {n : Node} (hS : Scanned toks) (h : noteRestOrChord toks = .ok (n, left)) : ∃ e, EvSound toks n left e := by
  have a := chordLoop_sound (toks.length + 1) toks hS.ends (by omega)
  unfold noteRestOrChord at h
  split at h
  · cases h
  · rename_i nodes times left' hc
    rw [hc] at a
    obtain ⟨ts, us, a1, a2, a3, a4, a5⟩ := a
    have key : ∃ n, (if (nodes.filter isNoteOrRest).length > 1 then [.mk .chord .none nodes] else nodes) = [n] ∧ NotesG ts n := by
      rcases a5 with ⟨n, rfl, a5⟩ | a5
      · refine ⟨n, if_neg ?_, .single ts n a5⟩
        have : ([n].filter isNoteOrRest).length ≤ [n].length := List.length_filter_le ..
        simp at this ⊢; omega
      · exact ⟨_, if_pos a5.filter, .chord ts nodes a5⟩
    obtain ⟨n0, k1, k2⟩ := key
    dsimp only at h
    rw [k1] at h
    dsimp only at h
    have hl := hS.lits
    rw [a1] at hl
    obtain ⟨e, e1, e2, e3, e4, e5, e6, e7⟩ := notesG_tree k2 hl.left.left
    have hlater : e.oneLine = false → Later toks left' := fun ho => by
      exact later_broken a1 hS.lined (e6 ho).left
    have hg : ∀ vs, e = .group vs → ∃ k u us, toks = u :: us ∧ u.tok = .voiceMarker k := by
      rintro vs rfl
      have := e5 1 (by omega)
      simp [Ev.mayRepeat] at this
    rcases a4 with ⟨rfl, rfl⟩ | ⟨t, rfl, a4⟩
    · rw [if_neg (by omega)] at h
      cases h
      exact ⟨e, ⟨e1, e2, e3 _, fun ho => by rw [e4] at ho; simp at ho, hlater, hg, e7⟩⟩
    · split at h
      · rename_i ht
        cases h
        obtain ⟨m, m1, m2⟩ := denotes_repeat a4 hl.left.right.head
        subst m1
        exact ⟨.rep e m, ⟨by rw [e1]; rfl, fun hc => ⟨e2 (clean_rep hc), m2, e5 m (by omega)⟩, rfl, by simp [Ev.open], hlater, by simp, e7⟩⟩
      · cases h
        exact ⟨e, ⟨e1, e2, e3 _, fun ho => by rw [e4] at ho; simp at ho, hlater, hg, e7⟩⟩

/-- An event of a single token. -/
theorem leaf_tree {toks left : List Token} (e : Ev) (h1 : e.ok) (h2 : e.allowed .part = true) (h3 : e.open = false) (h4 : e.oneLine = true)
    (h5 : ∀ vs, e ≠ .group vs) (h6 : e.fit := by trivial) : ∃ e', EvSound toks e.node left e' :=
  ⟨e, ⟨rfl, fun _ => h1, h2, fun h => by rw [h3] at h; simp at h, fun h => by rw [h4] at h; simp at h, fun vs h => absurd h (h5 vs), h6⟩⟩

/-! ### The loops -/

def ctxOf : EventLoop → Ctx
  | .part => .part
  | .varDef _ => .defn
  | .seq => .seq
  | .cram => .cram
  | .voice => .voice

/-- What the result of a loop is like. -/
structure EvsSound (loop : EventLoop) (toks : List Token) (ns : List Node) (left : List Token) (es : List Ev) : Prop where
  node : ns = nodes es
  ok : Apart ns → AllClean ns → allOk es ∧ shape (ctxOf loop) es
  close : loop ≠ .seq → loop ≠ .cram → lastOpen es = true → Closers left
  later : allOneLine es = false → Later toks left
  fit : allFit es ∧ ∀ N, loop = .varDef N → inLine es

/-- What the result of reading voices is like. -/
structure VoicesSound (k : Int) (toks : List Token) (ns : List Node) (left : List Token) (vs : List Ev) : Prop where
  node : ns = nodes vs
  ne : vs ≠ []
  ok : AllClean ns → allOk vs
  shape : ∀ first, (first = false → k ≠ 0) → groupShape first vs
  close : lastOpen vs = true → Closers left
  later : allOneLine vs = false → Later toks left
  fit : allFit vs

/-- The event that the loop makes of it. -/
theorem decorate_tree {loop : EventLoop} {toks ts l1 l2 : List Token} {n m : Node} {e : Ev} (h : toks = ts ++ l1) (hS : Scanned toks) (he : Ends l1)
    (hn : EvSound toks n l1 e) (hstop : loop.stop toks = .ok none) (hd : loop.decorate n l1 = (m, l2)) :
    ∃ e' : Ev, m = e'.node ∧ (Clean m → e'.ok) ∧ e'.allowed (ctxOf loop) = true ∧ (e'.open = true → Closers l2) ∧ (e'.oneLine = false → Later toks l2) ∧ e'.fit := by
  have plain : loop.decorate n l1 = (n, l1) → e.allowed (ctxOf loop) = true →
      ∃ e' : Ev, m = e'.node ∧ (Clean m → e'.ok) ∧ e'.allowed (ctxOf loop) = true ∧ (e'.open = true → Closers l2) ∧ (e'.oneLine = false → Later toks l2) ∧ e'.fit := by
    intro h1 h2
    rw [h1] at hd
    cases hd
    exact ⟨e, hn.node, hn.ok, h2, hn.close, hn.later, hn.fit⟩
  have ha : ∀ x : Ctx, x ≠ .voice → e.allowed x = true := by
    intro x hx
    have := hn.allowed
    cases e <;> simp [Ev.allowed] at this ⊢
    exact hx
  cases loop with
  | part => exact plain rfl (ha _ (by simp [ctxOf]))
  | varDef N => exact plain rfl (ha _ (by simp [ctxOf]))
  | cram => exact plain rfl (ha _ (by simp [ctxOf]))
  | voice =>
    refine plain rfl ?_
    have := hn.allowed
    cases e with
    | group vs =>
      obtain ⟨k, ⟨t, x, p⟩, us, e1, e2⟩ := hn.group vs rfl
      simp only at e2
      subst e1 e2
      simp [EventLoop.stop] at hstop
    | _ => simp [Ev.allowed] at this ⊢
  | seq =>
    simp only [EventLoop.decorate, withRepetitions] at hd
    split at hd
    · rename_i rs x p l1
      cases hd
      have hl := ((h ▸ hS).append he).lits.head (by simp)
      simp only at hl
      cases hl with
      | repetitions cs _ hr =>
        obtain ⟨ps, p1, p2, p3⟩ := denotes_ranges hr
        have ho : e.open = false := by
          cases hx : e.open with
          | false => rfl
          | true =>
            rcases hn.close hx with ⟨u, us, e1, e2⟩ | e1
            · injection e1 with e1 _
              rw [← e1] at e2
              simp at e2
            · simp [looksLikePartDeclaration] at e1
        refine ⟨.onReps e ps, ?_, fun hc => ⟨hn.ok ?_, p2, p3, ho, hn.allowed⟩, rfl, by simp [Ev.open], fun hl => ?_, hn.fit⟩
        · rw [hn.node, p1]; rfl
        · simp only [Clean, AllClean] at hc
          exact hc.2.2.1
        · exact later_trans h (ms := [⟨.repetitions rs, '\'' :: cs, p⟩]) rfl he (he.tail (by simp)) hS.lined (hn.later hl)
    · cases hd
      exact ⟨e, hn.node, hn.ok, ha _ (by simp [ctxOf]), hn.close, hn.later, hn.fit⟩

theorem nodes_nil {es : List Ev} (h : [] = nodes es) : es = [] := by
  cases es with
  | nil => rfl
  | cons => simp [nodes] at h

theorem varDef_later {fuel N : Nat} {R left : List Token} {ns : List Node} (h : ∀ u us, R = u :: us → u.tok = .eof ∨ N < u.pos.line) (hne : Ends R)
    (he : events fuel (.varDef N) R = .ok (ns, left)) : ns = [] := by
  cases fuel with
  | zero => simp [events] at he
  | succ f =>
    cases R with
    | nil => exact absurd hne Ends.not_nil
    | cons u us =>
      simp only [events, varDef_stop (h u us rfl)] at he
      cases he
      rfl

/-- One more event. -/
theorem cons_tree {loop : EventLoop} {fuel : Nat} {toks ts l2 left : List Token} {m : Node} {ns : List Node} {e : Ev} {es : List Ev} (h : toks = ts ++ l2)
    (hS : Scanned toks) (hE : Ends l2) (hL : Ends left) (hm : ∃ ms, l2 = ms ++ left)
    (h1 : m = e.node) (h2 : Clean m → e.ok) (h3 : e.allowed (ctxOf loop) = true) (h4 : e.open = true → Closers l2)
    (h5 : e.oneLine = false → Later toks l2) (h6 : e.fit) (hes : EvsSound loop l2 ns left es) (hev : events fuel loop l2 = .ok (ns, left)) (hb : ¬ Bad left)
    (hline : ∀ N, loop = .varDef N → ∃ t more, toks = t :: more ∧ t.pos.line = N) :
    EvsSound loop toks (m :: ns) left (e :: es) := by
  have hopen : e.open = true → ns = [] := fun ho => (closers_loop (h4 ho) hev).resolve_right hb
  have hone : ctxOf loop = .defn → es ≠ [] → e.oneLine = true := fun hx hne => by
    cases hx' : e.oneLine with
    | true => rfl
    | false =>
      cases loop with
      | varDef N =>
        obtain ⟨t, more, t1, t2⟩ := hline N rfl
        have := varDef_later (fun u us hu => by
          have := h5 hx' t more u us t1 hu
          rwa [t2] at this) hE hev
        subst this
        exact absurd (nodes_nil hes.node) hne
      | _ => simp [ctxOf] at hx
  refine ⟨by rw [h1, hes.node]; rfl, fun hap hcl => ?_, fun n1 n2 ho => ?_, fun ho => ?_, ⟨h6, hes.fit.1⟩,
    fun N hN => ⟨fun hne => hone (by rw [hN]; rfl) hne, hes.fit.2 N hN⟩⟩
  · simp only [AllClean] at hcl
    have hap' : Apart ns := by
      cases ns with
      | nil => trivial
      | cons => exact hap.2
    obtain ⟨o1, o2⟩ := hes.ok hap' hcl.2
    refine ⟨⟨h2 hcl.1, o1⟩, h3, fun hne => ?_, fun e' he' => ?_, fun hx hne => ?_, o2⟩
    · cases hx : e.open with
      | false => rfl
      | true =>
        have := hopen hx
        subst this
        exact absurd (nodes_nil hes.node) hne
    · cases es with
      | nil => simp at he'
      | cons e1 es =>
        simp at he'
        subst he'
        rw [hes.node] at hap
        simp only [nodes, Apart, h1, Ev.endsInLength, Ev.startsWithBarline] at hap
        exact hap.1
    · exact hone hx hne
  · cases es with
    | nil =>
      have hnil : ns = [] := hes.node
      subst hnil
      rw [events_nil n1 n2 hev]
      exact h4 ho
    | cons e1 es => exact hes.close n1 n2 ho
  · simp only [allOneLine, Bool.and_eq_false_iff] at ho
    obtain ⟨ms, hm⟩ := hm
    rcases ho with ho | ho
    · exact later_trans h hm hE hL hS.lined (h5 ho)
    · exact later_inner h hE hS.lined (hes.later ho)

end Syn
end Alda
