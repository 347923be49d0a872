import Verif.Lemmas.Print
/-!
The tree of syntax of score updates that can be written. (For C48.)
-/
namespace Alda
namespace Syn
open Spec Tree

mutual
def formOf : LispForm → Form
  | .list fs => .list (formsOf fs)
  | .quoted f => .quoted (formOf f)
  | .num q => .num q
  | .str s => .str s
  | .sym s => .sym s
  | _ => .list []
def formsOf : List LispForm → List Form
  | [] => []
  | f :: fs => formOf f :: formsOf fs
end

mutual
theorem genForm_tree : ∀ f, PrintableForm f → genForm f = .ok (formOf f).node ∧ (formOf f).ok ∧ ((formOf f).isQuoted = true → IsQuoted f)
  | .list fs, h => by
    obtain ⟨h1, h2⟩ := genForms_tree fs h
    exact ⟨by simp only [genForm, h1, ok_bind]; rfl, h2, by simp [formOf, Form.isQuoted]⟩
  | .quoted f, h => by
    obtain ⟨h1, h2, h3⟩ := genForm_tree f h.1
    refine ⟨by simp only [genForm, h1, ok_bind]; rfl, ⟨h2, ?_⟩, fun _ => trivial⟩
    cases hq : (formOf f).isQuoted with
    | false => rfl
    | true => exact absurd (h3 hq) h.2
  | .num q, h => ⟨rfl, h, by simp [formOf, Form.isQuoted]⟩
  | .str s, h => ⟨rfl, h, by simp [formOf, Form.isQuoted]⟩
  | .sym s, h => ⟨rfl, h, by simp [formOf, Form.isQuoted]⟩
  | .quoteForm, h | .fn _, h | .nil, h | .update _, h | .pitch _, h | .dur _, h => h.elim
theorem genForms_tree : ∀ fs, PrintableForms fs → genForms fs = .ok (formNodes (formsOf fs)) ∧ formsOk (formsOf fs)
  | [], _ => ⟨rfl, trivial⟩
  | f :: fs, h => by
    obtain ⟨h1, h2, _⟩ := genForm_tree f h.1
    obtain ⟨h3, h4⟩ := genForms_tree fs h.2
    exact ⟨by simp only [genForms, h1, h3, ok_bind]; rfl, h2, h4⟩
end

def compOf : DurComp → Comp
  | .length d dots => .len d dots
  | .ms q => .ms q
  | .seconds q => .sec q
  | _ => .bar

theorem genComponents_tree : ∀ (d : Dur), (∀ c ∈ d, PrintableComp c) →
    genComponents d = .ok ((d.map compOf).map Comp.node) ∧ ∀ c ∈ d.map compOf, c.ok
  | [], _ => ⟨rfl, by simp⟩
  | c :: d, h => by
    obtain ⟨h1, h2⟩ := genComponents_tree d (fun c hc => h c (List.mem_cons_of_mem _ hc))
    have h3 := h c (List.mem_cons_self ..)
    have h4 : genComponent c = .ok (compOf c).node ∧ (compOf c).ok := by
      cases c with
      | length q dots =>
        refine ⟨rfl, h3.1, h3.2.1, ?_⟩
        have := h3.2.2.2
        simp only [maxInt]; omega
      | barline => exact ⟨rfl, trivial⟩
      | ms q => exact ⟨rfl, h3⟩
      | seconds q => exact ⟨rfl, h3⟩
      | beats q => exact h3.elim
      | nested cs => exact h3.elim
    refine ⟨by simp only [genComponents, h4.1, h1, ok_bind]; rfl, ?_⟩
    intro c hc
    simp only [List.map_cons, List.mem_cons] at hc
    rcases hc with rfl | hc
    · exact h4.2
    · exact h2 c hc

theorem compOf_bar {c : DurComp} (h : PrintableComp c) (hb : compOf c = .bar) : c = .barline := by
  cases c <;> simp_all [compOf, PrintableComp]

theorem genDuration_tree {d : Dur} (h : PrintableDur d) : genDuration d = .ok (durNodes (d.map compOf)) ∧ durOk (d.map compOf) := by
  obtain ⟨h1, h2⟩ := genComponents_tree d h.1
  constructor
  · unfold genDuration durNodes
    cases d with
    | nil => rfl
    | cons c d => simp only [h1, ok_bind, List.map_cons, List.isEmpty_cons]; rfl
  · refine ⟨h2, ?_⟩
    cases d with
    | nil => simp
    | cons c d =>
      intro hb
      simp only [List.map_cons, List.head?_cons, Option.some.injEq] at hb
      exact h.2 (by simp [compOf_bar (h.1 c (List.mem_cons_self ..)) hb])

theorem getLast_bar {d : Dur} (h : ∀ c ∈ d, PrintableComp c) (hb : (d.map compOf).getLast? = some .bar) : d.getLast? = some .barline := by
  rw [List.getLast?_map] at hb
  cases hd : d.getLast? with
  | none => rw [hd] at hb; cases hb
  | some c =>
    rw [hd] at hb
    simp only [Option.map_some, Option.some.injEq] at hb
    rw [compOf_bar (h c (List.mem_of_getLast? hd)) hb]

/-! ### Events -/

/-- Events up to the first voice, the voices with their end, and what comes after the end. -/
structure Stretch where
  cur : List Ev
  vs : List Ev
  rest : List Ev

/-- All as one list of events. -/
def Stretch.flat (r : Stretch) : List Ev := r.cur ++ ((if r.vs.isEmpty then [] else [.group r.vs]) ++ r.rest)

mutual
/-- The tree of an event. -/
def evOf (order : MapOrder) : Upd → Ev
  | .leaf (.note (.letter l acc) d slurred) => .note (letterChar l) (acc.getD []) (d.map compOf) slurred
  | .leaf (.rest d) => .rest (d.map compOf)
  | .leaf (.attr (.octave n)) => .oct n.toNat
  | .leaf (.attr .octaveUp) => .up
  | .leaf (.attr .octaveDown) => .down
  | .leaf (.attr (.dynamic m)) => .sexp [.sym m]
  | .leaf (.attr (.keySignature ks)) => .sexp [.sym "key-signature", .str (keyString order ks)]
  | .leaf (.attr (.transposition n)) => .sexp [.sym "transpose", .num n]
  | .lisp fs => .sexp (formsOf fs)
  | .marker n => .marker n
  | .atMarker n => .at n
  | .varRef n => .ref n
  | .chord es => .chord (evMap order es)
  | .cram es d => .cram (stretchOf order es).flat (d.map compOf)
  | .seq es => .seq (stretchOf order es).flat
  | .rep e n => .rep (evOf order e) n.toNat
  | .onReps rs e => .onReps (evOf order e) (rs.map fun r => (r.1.toNat, r.2.toNat))
  | _ => .bar
def evMap (order : MapOrder) : List Upd → List Ev
  | [] => []
  | u :: us => evOf order u :: evMap order us
def stretchOf (order : MapOrder) : List Upd → Stretch
  | [] => ⟨[], [], []⟩
  | .voice n :: us => ⟨[], .voice n.toNat (stretchOf order us).cur :: (stretchOf order us).vs, (stretchOf order us).rest⟩
  | .voiceEnd :: us => ⟨[], [.voiceEnd], (stretchOf order us).flat⟩
  | u :: us => ⟨evOf order u :: (stretchOf order us).cur, (stretchOf order us).vs, (stretchOf order us).rest⟩
end

/-- What is known of the tree of an event. -/
structure EvGood (order : MapOrder) (u : Upd) (e : Ev) : Prop where
  gen : genUpd order (plain u) = .ok e.node
  ok : e.ok
  closed : e.open = false
  tail : e.tailDur = true → LengthLast u
  head : e.headBar = true ↔ BarlineFirst u
  allowed : ∀ x, (ForRepetitions u → x = .seq) → e.allowed x = true
  nr : PrintedSounding u → e.isNR = true
  member : PrintedInChord u → e.inChord = true
  rep : ∀ n : Int, Repeatable n u → e.mayRepeat n.toNat = true

theorem toNat_le {n : Int} (h : Counting n) : n.toNat ≤ maxInt := by
  have := h.2
  simp only [maxInt]; omega

theorem toNat_cast {n : Int} (h : Counting n) : (n.toNat : Int) = n := by
  have := h.1; omega

theorem keyString_noQuote (order : MapOrder) (ks : KeySig) : '"' ∉ (keyString order ks).toList := by
  rw [keyString, String.toList_ofList]
  have hj : ∀ ws : List (List Char), (∀ w ∈ ws, '"' ∉ w) → '"' ∉ joinSpace ws := by
    intro ws
    induction ws with
    | nil => intro _; simp [joinSpace]
    | cons w ws ih =>
      intro h
      cases ws with
      | nil => exact h w (List.mem_cons_self ..)
      | cons w' ws =>
        rw [joinSpace]
        intro hm
        rcases List.mem_append.1 hm with hm | hm
        · exact h w (List.mem_cons_self ..) hm
        · rcases List.mem_cons.1 hm with hm | hm
          · exact absurd hm (by decide)
          · exact ih (fun w hw => h w (List.mem_cons_of_mem _ hw)) hm
        · simp
  apply hj
  intro w hw
  obtain ⟨l, _, rfl⟩ := List.mem_map.1 hw
  intro hm
  simp only [keyEntry, List.mem_cons, List.mem_map] at hm
  rcases hm with hm | ⟨a, _, hm⟩
  · cases l <;> exact absurd hm (by decide)
  · cases a <;> exact absurd hm (by decide)

theorem symbol_of_markings : ∀ m ∈ markings, isSymbol m := by
  intro m hm
  simp only [markings, List.mem_cons, List.not_mem_nil, or_false] at hm
  rcases hm with rfl | rfl | rfl | rfl | rfl | rfl | rfl | rfl | rfl | rfl | rfl | rfl | rfl | rfl <;>
    exact ⟨_, _, rfl, by decide, by decide, by decide⟩

theorem isDecimal_int (n : Int) : IsDecimal n := ⟨0, n, by simp⟩

theorem evGood_leaf (order : MapOrder) {l : Leaf} (h : PrintableLeaf l) : EvGood order (.leaf l) (evOf order (.leaf l)) := by
  cases l with
  | note p d slurred =>
    cases p with
    | midi n => exact h.elim
    | letter l acc =>
      obtain ⟨h1, h2, h3⟩ := h
      obtain ⟨h4, h5⟩ := genDuration_tree h2
      refine ⟨?_, ⟨by cases l <;> decide, h5, fun hs hb => h3 hs (getLast_bar h2.1 hb)⟩, rfl, ?_, ?_, ?_, fun _ => rfl, fun _ => rfl, ?_⟩
      · simp only [plain, genUpd, genPitch, h4, ok_bind, evOf, Ev.node, atom, branch]
        cases hacc : acc.getD [] with
        | nil => cases slurred <;> rfl
        | cons a as =>
          have ha : ∀ as : List Accidental, as.map genAccidental = as.map accNode := by
            intro as; congr 1
          simp only [ha, List.isEmpty_cons]
          cases slurred <;> rfl
      · intro ht
        simp only [evOf, Ev.tailDur, Bool.and_eq_true, Bool.not_eq_true', List.isEmpty_map] at ht
        exact ⟨by intro hd; rw [hd] at ht; simp at ht, ht.2⟩
      · simp [evOf, Ev.headBar, BarlineFirst]
      · intro x _; cases x <;> rfl
      · intro n hn
        simp only [evOf, Ev.mayRepeat]
        simp only [Repeatable] at hn
        simpa using hn
  | rest d =>
    obtain ⟨h4, h5⟩ := genDuration_tree (d := d) h
    refine ⟨?_, h5, rfl, ?_, ?_, ?_, fun _ => rfl, fun _ => rfl, ?_⟩
    · simp only [plain, genUpd, h4, ok_bind]; rfl
    · intro ht
      simp only [evOf, Ev.tailDur, Bool.not_eq_true', List.isEmpty_map] at ht
      simp only [LengthLast]
      intro hd; rw [hd] at ht; simp at ht
    · simp [evOf, Ev.headBar, BarlineFirst]
    · intro x _; cases x <;> rfl
    · intro n hn
      simp only [evOf, Ev.mayRepeat]
      simp only [Repeatable] at hn
      simpa using hn
  | globalAttr u => exact h.elim
  | attr u =>
    cases u with
    | octave n =>
      refine ⟨?_, toNat_le h, rfl, by simp [evOf, Ev.tailDur], by simp [evOf, Ev.headBar, BarlineFirst], fun x _ => rfl, fun h => h.elim, fun _ => rfl,
        fun _ h => h.elim⟩
      simp only [plain, genUpd, genAttribute, evOf, Ev.node, toNat_cast h]; rfl
    | octaveUp | octaveDown =>
      exact ⟨rfl, trivial, rfl, by simp [evOf, Ev.tailDur], by simp [evOf, Ev.headBar, BarlineFirst], fun x _ => rfl, fun h => h.elim, fun _ => rfl,
        fun _ h => h.elim⟩
    | dynamic m =>
      exact ⟨rfl, ⟨symbol_of_markings m h, trivial⟩, rfl, by simp [evOf, Ev.tailDur], by simp [evOf, Ev.headBar, BarlineFirst], fun x _ => rfl,
        fun h => h.elim, fun _ => rfl, fun _ _ => rfl⟩
    | keySignature ks =>
      exact ⟨rfl, ⟨⟨_, _, rfl, by decide, by decide, by decide⟩, keyString_noQuote order ks, trivial⟩, rfl, by simp [evOf, Ev.tailDur],
        by simp [evOf, Ev.headBar, BarlineFirst], fun x _ => rfl, fun h => h.elim, fun _ => rfl, fun _ _ => rfl⟩
    | transposition n =>
      refine ⟨?_, ⟨⟨_, _, rfl, by decide, by decide, by decide⟩, isDecimal_int n, trivial⟩, rfl, by simp [evOf, Ev.tailDur],
        by simp [evOf, Ev.headBar, BarlineFirst], fun x _ => rfl, fun h => h.elim, fun _ => rfl, fun _ _ => rfl⟩
      simp only [plain]
      rw [if_pos (show InInt32 n from h)]
      rfl
    | _ => exact h.elim

theorem evMap_any (order : MapOrder) : ∀ us, (∀ u ∈ us, EvGood order u (evOf order u)) → allOk (evMap order us)
  | [], _ => trivial
  | u :: us, h => ⟨(h u (List.mem_cons_self ..)).ok, evMap_any order us (fun u hu => h u (List.mem_cons_of_mem _ hu))⟩

theorem evMap_eq (order : MapOrder) (us : List Upd) : evMap order us = us.map (evOf order) := by
  induction us with
  | nil => rfl
  | cons u us ih => simp only [evMap, ih, List.map_cons]

theorem lastTail_evMap (order : MapOrder) : ∀ us, (∀ u ∈ us, EvGood order u (evOf order u)) → lastTail (evMap order us) = true → LengthLastL us
  | [], _, ht => by simp [evMap, lastTail] at ht
  | [u], h, ht => (h u (List.mem_cons_self ..)).tail ht
  | u :: v :: us, h, ht => lastTail_evMap order (v :: us) (fun u hu => h u (List.mem_cons_of_mem _ hu)) ht

/-- The members of a chord. -/
theorem genInner_members (order : MapOrder) : ∀ us, (∀ u ∈ us, PrintedInChord u) → (∀ u ∈ us, EvGood order u (evOf order u)) → ∀ dummy,
    genInner order (plainL us) dummy none = .ok (dummy ++ nodes (evMap order us))
  | [], _, _, dummy => by simp [plainL, genInner, closeGroup, evMap, nodes]
  | u :: us, hm, h, dummy => by
    have h1 := (h u (List.mem_cons_self ..)).gen
    have hp : (∀ n, plain u ≠ .voice n) ∧ plain u ≠ .voiceEnd := by
      have := hm u (List.mem_cons_self ..)
      cases u with
      | leaf l =>
        cases l with
        | attr a =>
          cases a with
          | transposition n => simp only [plain]; split <;> simp
          | _ => simp [plain]
        | _ => simp [plain]
      | lisp fs => simp [plain]
      | _ => exact this.elim
    rw [plainL, genInner.eq_5 order dummy none (plain u) (plainL us) hp.1 hp.2, h1]
    simp only [ok_bind, addNode]
    rw [genInner_members order us (fun u hu => hm u (List.mem_cons_of_mem _ hu)) (fun u hu => h u (List.mem_cons_of_mem _ hu))]
    simp [evMap, nodes]

theorem plain_voice (u : Upd) : (∀ n, u ≠ .voice n) → u ≠ .voiceEnd → (∀ n, plain u ≠ .voice n) ∧ plain u ≠ .voiceEnd := by
  intro h1 h2
  cases u with
  | leaf l =>
    cases l with
    | attr a =>
      cases a with
      | transposition n => simp only [plain]; split <;> simp
      | _ => simp [plain]
    | _ => simp [plain]
  | voice n => exact absurd rfl (h1 n)
  | voiceEnd => exact absurd rfl h2
  | _ => simp [plain]

/-- Events outside voices. -/
structure FlatGood (order : MapOrder) (x : Ctx) (us : List Upd) (es : List Ev) : Prop where
  gen : ∀ dummy, genInner order (plainL us) dummy none = .ok (dummy ++ nodes es)
  ok : allOk es
  shape : shape x es
  head : ∀ e ∈ es.head?, e.headBar = true → ∃ u ∈ us.head?, BarlineFirst u

/-- Events in a voice, and what follows. -/
structure VoiceGood (order : MapOrder) (x : Ctx) (us : List Upd) (r : Stretch) : Prop where
  gen : ∀ dummy before (n : Int) events, genInner order (plainL us) dummy (some ⟨before, n, events⟩) =
    .ok (dummy ++ (.mk .voiceGroup .none (before ++ .mk .voice .none [.mk .voiceNumber (.int n) [], .mk .eventSequence .none (events ++ nodes r.cur)] ::
      nodes r.vs) :: nodes r.rest))
  okCur : allOk r.cur
  okVs : allOk r.vs
  okRest : allOk r.rest
  shapeCur : Tree.shape .voice r.cur
  shapeVs : groupShape false r.vs
  shapeRest : Tree.shape x r.rest
  closed : lastOpen r.cur = false
  ended : r.rest ≠ [] → r.vs ≠ [] ∧ lastOpen r.vs = false
  head : ∀ e ∈ r.cur.head?, e.headBar = true → ∃ u ∈ us.head?, BarlineFirst u

theorem stretch_flat_cons (e : Ev) (r : Stretch) : Stretch.flat ⟨e :: r.cur, r.vs, r.rest⟩ = e :: r.flat := rfl

theorem lastOpen_cons {e : Ev} {es : List Ev} (h : e.open = false) (h2 : lastOpen es = false) : lastOpen (e :: es) = false := by
  cases es with
  | nil => exact h
  | cons e' es => exact h2

theorem stretchOf_other (order : MapOrder) {u : Upd} (h1 : ∀ n, u ≠ .voice n) (h2 : u ≠ .voiceEnd) (us : List Upd) :
    stretchOf order (u :: us) = ⟨evOf order u :: (stretchOf order us).cur, (stretchOf order us).vs, (stretchOf order us).rest⟩ := by
  cases u with
  | voice n => exact absurd rfl (h1 n)
  | voiceEnd => exact absurd rfl h2
  | _ => rfl

theorem printableL_other {b v : Bool} {u : Upd} {us : List Upd} (h1 : ∀ n, u ≠ .voice n) (h2 : u ≠ .voiceEnd) (h : PrintableL b v (u :: us)) :
    Printable u ∧ (ForRepetitions u → b = true ∧ v = false) ∧ (∀ u' ∈ us.head?, ¬ (LengthLast u ∧ BarlineFirst u')) ∧ PrintableL b v us := by
  cases u with
  | voice n => exact absurd rfl (h1 n)
  | voiceEnd => exact absurd rfl h2
  | _ => exact h

theorem shape_cons {order : MapOrder} {x : Ctx} {u : Upd} {us : List Upd} {e : Ev} {es : List Ev} (hx : x ≠ .defn) (hu : EvGood order u e)
    (hr : ForRepetitions u → x = .seq) (hh : ∀ e ∈ es.head?, e.headBar = true → ∃ u ∈ us.head?, BarlineFirst u)
    (hn : ∀ u' ∈ us.head?, ¬ (LengthLast u ∧ BarlineFirst u')) (hs : Tree.shape x es) : Tree.shape x (e :: es) := by
  refine ⟨hu.allowed x hr, fun _ => hu.closed, ?_, fun h => absurd h hx, hs⟩
  intro e' he' ⟨h1, h2⟩
  obtain ⟨u', hu', hb⟩ := hh e' he' h2
  exact hn u' hu' ⟨hu.tail h1, hb⟩

mutual
theorem evGood (order : MapOrder) : ∀ u, Printable u → EvGood order u (evOf order u)
  | .leaf l, h => evGood_leaf order h
  | .lisp fs, h => by
    obtain ⟨h1, h2⟩ := genForms_tree fs h
    exact ⟨by simp only [plain, genUpd, h1, ok_bind]; rfl, h2, rfl, by simp [evOf, Ev.tailDur], by simp [evOf, Ev.headBar, BarlineFirst], fun x _ => rfl,
      fun h => h.elim, fun _ => rfl, fun _ _ => rfl⟩
  | .barline, _ => ⟨rfl, trivial, rfl, by simp [evOf, Ev.tailDur], by simp [evOf, Ev.headBar, BarlineFirst], fun x _ => rfl, fun h => h.elim,
      fun h => h.elim, fun _ h => h.elim⟩
  | .marker n, h => ⟨rfl, h, rfl, by simp [evOf, Ev.tailDur], by simp [evOf, Ev.headBar, BarlineFirst], fun x _ => rfl, fun h => h.elim,
      fun h => h.elim, fun _ h => h.elim⟩
  | .atMarker n, h => ⟨rfl, h, rfl, by simp [evOf, Ev.tailDur], by simp [evOf, Ev.headBar, BarlineFirst], fun x _ => rfl, fun h => h.elim,
      fun h => h.elim, fun _ h => h.elim⟩
  | .varRef n, h => ⟨rfl, h, rfl, by simp [evOf, Ev.tailDur], by simp [evOf, Ev.headBar, BarlineFirst], fun x _ => rfl, fun h => h.elim,
      fun h => h.elim, fun _ _ => rfl⟩
  | .chord es, h => by
    have hg := evGoods order es h.2.2.2.2
    have h1 := genInner_members order es h.2.1 hg []
    refine ⟨by simp only [plain, genUpd, h1, ok_bind]; rfl, ⟨evMap_any order es hg, ?_⟩, rfl, ?_, by simp [evOf, Ev.headBar, BarlineFirst], ?_, fun h => h.elim,
      fun h => h.elim, ?_⟩
    · rw [evMap_eq]
      refine ⟨by simpa using h.1, ?_, ?_, ?_⟩
      · intro e he
        obtain ⟨u, hu, rfl⟩ := List.mem_map.1 he
        exact (hg u hu).member (h.2.1 u hu)
      · intro e he
        rw [List.head?_map] at he
        cases hh : es.head? with
        | none => rw [hh] at he; cases he
        | some u =>
          rw [hh] at he
          cases he
          exact (hg u (List.mem_of_head? hh)).nr (h.2.2.1 u hh)
      · intro e he
        rw [List.getLast?_map] at he
        cases hh : es.getLast? with
        | none => rw [hh] at he; cases he
        | some u =>
          rw [hh] at he
          cases he
          exact (hg u (List.mem_of_getLast? hh)).nr (h.2.2.2.1 u hh)
    · intro ht
      exact lastTail_evMap order es hg ht
    · intro x _; cases x <;> rfl
    · intro n hn
      simp only [Repeatable] at hn
      simp only [evOf, Ev.mayRepeat]
      simpa using hn
  | .cram es d, h => by
    obtain ⟨h1, h2⟩ := genDuration_tree h.2.2
    have hf := (stretchGood order es false false h.2.1 .cram (by simp) (by decide) (by decide)).1 rfl
    refine ⟨?_, ⟨?_, hf.ok, hf.shape, h2⟩, rfl, ?_, by simp [evOf, Ev.headBar, BarlineFirst], ?_, fun h => h.elim, fun h => h.elim, fun _ _ => rfl⟩
    · simp only [plain, genUpd, hf.gen, h1, ok_bind]; rfl
    · intro hn
      have := h.1
      cases es with
      | nil => exact this rfl
      | cons u us =>
        cases u with
        | voice n => simp [stretchOf, Stretch.flat] at hn
        | voiceEnd => cases h.2.1.1
        | _ => simp [stretchOf, Stretch.flat] at hn
    · intro ht
      simp only [evOf, Ev.tailDur, Bool.not_eq_true', List.isEmpty_map] at ht
      simp only [LengthLast]
      intro hd; rw [hd] at ht; simp at ht
    · intro x _; cases x <;> rfl
  | .seq es, h => by
    have hf := (stretchGood order es true false h .seq (by simp) (by decide) (by decide)).1 rfl
    refine ⟨?_, ⟨hf.ok, hf.shape⟩, rfl, by simp [evOf, Ev.tailDur], by simp [evOf, Ev.headBar, BarlineFirst], ?_, fun h => h.elim, fun h => h.elim,
      fun _ _ => rfl⟩
    · simp only [plain, genUpd, hf.gen, ok_bind]; rfl
    · intro x _; cases x <;> rfl
  | .rep e n, h => by
    have he := evGood order e h.1
    refine ⟨?_, ⟨he.ok, toNat_le h.2.1, he.rep n h.2.2⟩, rfl, by simp [evOf, Ev.tailDur], by simp [evOf, Ev.headBar, BarlineFirst], ?_, fun h => h.elim,
      fun h => h.elim, fun _ h => h.elim⟩
    · simp only [plain, genUpd, he.gen, ok_bind, evOf, Ev.node, toNat_cast h.2.1]; rfl
    · intro x _; cases x <;> rfl
  | .onReps rs e, h => by
    have he := evGood order e h.1
    refine ⟨?_, ⟨he.ok, by simpa using h.2.1, ?_, he.closed, he.allowed .part (fun hf => absurd hf h.2.2.2)⟩, rfl, by simp [evOf, Ev.tailDur], ?_, ?_,
      fun h => h.elim, fun h => h.elim, fun _ h => h.elim⟩
    · have hr : genRanges rs = rangesNodes (rs.map fun r => (r.1.toNat, r.2.toNat)) := by
        have : (rs.map fun r => (r.1.toNat, r.2.toNat)).map (fun r => ((r.1 : Int), (r.2 : Int))) = rs := by
          rw [List.map_map]
          conv => rhs; rw [← List.map_id rs]
          apply List.map_congr_left
          intro r hr
          have := h.2.2.1 r hr
          simp only [Function.comp, toNat_cast this.1, toNat_cast this.2, id]
        rw [rangesNodes, this]
        rfl
      simp only [plain, genUpd, he.gen, ok_bind, hr]; rfl
    · intro r hr
      obtain ⟨r', hr', rfl⟩ := List.mem_map.1 hr
      have := h.2.2.1 r' hr'
      exact ⟨toNat_le this.1, toNat_le this.2⟩
    · simp only [evOf, Ev.headBar, BarlineFirst]; exact he.head
    · intro x hx
      simp only [evOf, Ev.allowed]
      simpa using hx trivial
  | .varDef _ _, h | .lispNil, h | .voice _, h | .voiceEnd, h | .partDecl _ _, h => h.elim
theorem evGoods (order : MapOrder) : ∀ us, PrintableAll us → ∀ u ∈ us, EvGood order u (evOf order u)
  | [], _, u, hu => by cases hu
  | v :: us, h, u, hu => by
    rcases List.mem_cons.1 hu with hv | hu
    · rw [hv]; exact evGood order v h.1
    · exact evGoods order us h.2 u hu
theorem stretchGood (order : MapOrder) : ∀ us b v, PrintableL b v us → ∀ x, (b = true → x = .seq) → x ≠ .voice → x ≠ .defn →
    (v = false → FlatGood order x us (stretchOf order us).flat) ∧ (v = true → VoiceGood order x us (stretchOf order us))
  | [], b, v, _, x, hb, hx, hx2 => by
    constructor
    · intro _
      exact ⟨fun dummy => by simp [plainL, genInner, closeGroup, stretchOf, Stretch.flat, nodes], trivial, trivial, by simp [stretchOf, Stretch.flat]⟩
    · intro _
      exact ⟨fun dummy before n events => by simp [plainL, genInner, closeGroup, stretchOf, Group.nodes, nodes], trivial, trivial, trivial, trivial, trivial,
        trivial, rfl, by simp [stretchOf], by simp [stretchOf]⟩
  | u :: us, b, v, h, x, hb, hx, hx2 => by
    have hv : (∀ n, u ≠ .voice n) → u ≠ .voiceEnd → (v = false → FlatGood order x (u :: us) (stretchOf order (u :: us)).flat) ∧
        (v = true → VoiceGood order x (u :: us) (stretchOf order (u :: us))) := by
      intro hu1 hu2
      obtain ⟨h1, h2, h3, h4⟩ := printableL_other hu1 hu2 h
      obtain ⟨hp1, hp2⟩ := plain_voice u hu1 hu2
      have hu := evGood order u h1
      have ih := stretchGood order us b v h4 x hb hx hx2
      rw [stretchOf_other order hu1 hu2]
      constructor
      · intro hv
        have hf := ih.1 hv
        rw [stretch_flat_cons]
        refine ⟨?_, ⟨hu.ok, hf.ok⟩, shape_cons hx2 hu (fun hr => hb (h2 hr).1) hf.head h3 hf.shape, ?_⟩
        · intro dummy
          rw [plainL, genInner.eq_5 order dummy none (plain u) (plainL us) hp1 hp2, hu.gen]
          simp only [ok_bind, addNode, hf.gen, nodes, List.append_assoc, List.cons_append, List.nil_append]
        · intro e he heb
          cases he
          exact ⟨u, rfl, hu.head.1 heb⟩
      · intro hv
        have hg := ih.2 hv
        refine ⟨?_, ⟨hu.ok, hg.okCur⟩, hg.okVs, hg.okRest, shape_cons (by decide) hu ?_ hg.head h3 hg.shapeCur, hg.shapeVs, hg.shapeRest,
          lastOpen_cons hu.closed hg.closed, hg.ended, ?_⟩
        · intro dummy before n events
          rw [plainL, genInner.eq_5 order dummy _ (plain u) (plainL us) hp1 hp2, hu.gen]
          simp only [ok_bind, addNode, hg.gen, nodes, List.append_assoc, List.cons_append, List.nil_append]
        · intro hr
          rw [(h2 hr).2] at hv
          cases hv
        · intro e he heb
          cases he
          exact ⟨u, rfl, hu.head.1 heb⟩
    cases u with
    | voice n =>
      obtain ⟨hn1, hn2, h⟩ := h
      have hg := (stretchGood order us b true h x hb hx hx2).2 rfl
      have hn3 : n.toNat ≠ 0 := by omega
      have hvs : ∀ first, groupShape first (.voice n.toNat (stretchOf order us).cur :: (stretchOf order us).vs) :=
        fun first => ⟨⟨fun _ => hn3, fun _ => hg.closed⟩, hg.shapeVs⟩
      constructor
      · intro _
        have hfl : (stretchOf order (.voice n :: us)).flat =
            .group (.voice n.toNat (stretchOf order us).cur :: (stretchOf order us).vs) :: (stretchOf order us).rest := by
          simp [stretchOf, Stretch.flat]
        rw [hfl]
        refine ⟨?_, ⟨⟨by simp, ⟨⟨toNat_le hn2, hg.okCur, hg.shapeCur⟩, hg.okVs⟩, hvs true⟩, hg.okRest⟩, ⟨?_, ?_, ?_, fun h => absurd h hx2, hg.shapeRest⟩, ?_⟩
        · intro dummy
          rw [plainL, plain, genInner.eq_2, hg.gen]
          simp only [groupNodes, List.nil_append, nodes, Ev.node, toNat_cast hn2]
          rfl
        · simp [Ev.allowed, hx]
        · intro hr
          obtain ⟨h1, h2⟩ := hg.ended hr
          cases hvs' : (stretchOf order us).vs with
          | nil => exact absurd hvs' h1
          | cons w ws => rw [hvs'] at h2; exact h2
        · intro e' _ ⟨h1, _⟩
          simp [Ev.tailDur] at h1
        · intro e he heb
          cases he
          simp [Ev.headBar] at heb
      · intro _
        refine ⟨?_, trivial, ⟨⟨toNat_le hn2, hg.okCur, hg.shapeCur⟩, hg.okVs⟩, hg.okRest, trivial, hvs false, hg.shapeRest, rfl, ?_, by simp [stretchOf]⟩
        · intro dummy before m events
          rw [plainL, plain, genInner.eq_2, hg.gen]
          simp only [groupNodes, Group.nodes, stretchOf, nodes, Ev.node, List.append_nil, List.nil_append, List.append_assoc, List.cons_append, toNat_cast hn2]
          rfl
        · intro hr
          obtain ⟨h1, h2⟩ := hg.ended hr
          refine ⟨by simp [stretchOf], ?_⟩
          simp only [stretchOf]
          cases hvs' : (stretchOf order us).vs with
          | nil => exact absurd hvs' h1
          | cons w ws => rw [hvs'] at h2; exact h2
    | voiceEnd =>
      obtain ⟨hv, h⟩ := h
      have hf := (stretchGood order us b false h x hb hx hx2).1 rfl
      constructor
      · intro hv2; rw [hv] at hv2; cases hv2
      · intro _
        refine ⟨?_, trivial, ⟨trivial, trivial⟩, hf.ok, trivial, ⟨⟨rfl, rfl⟩, trivial⟩, hf.shape, rfl, fun _ => ⟨by simp [stretchOf], rfl⟩, by simp [stretchOf]⟩
        intro dummy before m events
        rw [plainL, plain]
        simp only [genInner, hf.gen, Group.nodes, stretchOf, nodes, Ev.node, List.append_nil, List.append_assoc, List.cons_append, List.nil_append]
        rfl
    | _ => exact hv (by simp) (by simp)
end

/-! ### The top level -/

/-- A declared part as a tree. -/
def partTree (order : MapOrder) (p : List String × String × List Upd) : Tree.Part :=
  .declared (p.1.headD "") p.1.tail (if p.2.1.isEmpty then none else some p.2.1) (stretchOf order p.2.2).flat

/-- What is asked of a declared part. -/
def PartPrintable (p : List String × String × List Upd) : Prop :=
  p.1 ≠ [] ∧ (∀ n ∈ p.1, NameText n) ∧ (∀ c ∈ p.2.1.toList, NameChar c) ∧ PrintableL false false p.2.2

theorem partTree_good (order : MapOrder) {p : List String × String × List Upd} (h : PartPrintable p) :
    genPart order (p.1, p.2.1, plainL p.2.2) = .ok (partTree order p).node ∧ (partTree order p).ok := by
  obtain ⟨names, alias, us⟩ := p
  obtain ⟨h1, h2, h3, h4⟩ := h
  have hf := (stretchGood order us false false h4 .part (by simp) (by decide) (by decide)).1 rfl
  cases names with
  | nil => exact absurd rfl h1
  | cons n ns =>
    constructor
    · simp only [genPart, hf.gen, ok_bind, partTree, Part.node, List.headD_cons, List.tail_cons]
      by_cases ha : alias.isEmpty
      · rw [if_pos ha, if_pos ha]; rfl
      · rw [if_neg ha, if_neg ha]; rfl
    · refine ⟨h2 n (List.mem_cons_self ..), fun s hs => h2 s (List.mem_cons_of_mem _ hs), ?_, hf.ok, hf.shape⟩
      intro a ha c hc
      by_cases he : alias.isEmpty
      · rw [if_pos he] at ha; cases ha
      · rw [if_neg he] at ha; cases ha; exact h3 c hc

theorem genParts_tree (order : MapOrder) : ∀ (ps : List (List String × String × List Upd)), (∀ p ∈ ps, PartPrintable p) →
    genParts order (ps.map fun p => (p.1, p.2.1, plainL p.2.2)) = .ok ((ps.map (partTree order)).map Part.node) ∧
    ∀ p ∈ ps.map (partTree order), p.ok ∧ p.isDeclared = true
  | [], _ => ⟨rfl, by simp⟩
  | p :: ps, h => by
    obtain ⟨h1, h2⟩ := genParts_tree order ps (fun p hp => h p (List.mem_cons_of_mem _ hp))
    obtain ⟨h3, h4⟩ := partTree_good order (h p (List.mem_cons_self ..))
    refine ⟨by simp only [List.map_cons, genParts, h1, h3, ok_bind]; rfl, ?_⟩
    intro q hq
    rcases List.mem_cons.1 hq with rfl | hq
    · exact ⟨h4, rfl⟩
    · exact h2 q hq

theorem splitParts_prefix {b v : Bool} {us : List Upd} (h : PrintableL b v us) (rest : List Upd) :
    splitParts (us ++ rest) = (us ++ (splitParts rest).1, (splitParts rest).2) := by
  induction us generalizing v with
  | nil => rfl
  | cons u us ih =>
    cases u with
    | partDecl names alias => exact h.1.elim
    | voice n => simp only [List.cons_append, splitParts, ih h.2.2]
    | voiceEnd => simp only [List.cons_append, splitParts, ih h.2]
    | _ => simp only [List.cons_append, splitParts, ih h.2.2.2]

theorem splitParts_printable {us : List Upd} (h : PrintableScore us) :
    PrintableL false false (splitParts us).1 ∧ ∀ p ∈ (splitParts us).2, PartPrintable p := by
  induction h with
  | events us h =>
    have h2 := splitParts_prefix h []
    rw [List.append_nil] at h2
    rw [h2]
    exact ⟨by simpa [splitParts] using h, by simp [splitParts]⟩
  | part us names alias rest h hn hn2 ha _ ih =>
    rw [splitParts_prefix h]
    simp only [splitParts, List.append_nil]
    refine ⟨h, ?_⟩
    intro p hp
    rcases List.mem_cons.1 hp with rfl | hp
    · exact ⟨hn, hn2, ha, ih.1⟩
    · exact ih.2 p hp

theorem flat_ne_nil (order : MapOrder) {b : Bool} {us : List Upd} (h : PrintableL b false us) (hne : us ≠ []) : (stretchOf order us).flat ≠ [] := by
  intro hn
  cases us with
  | nil => exact hne rfl
  | cons u us =>
    cases u with
    | voice n => simp [stretchOf, Stretch.flat] at hn
    | voiceEnd => cases h.1
    | _ => simp [stretchOf, Stretch.flat] at hn

/-- The AST of the score, with its transpositions as lisp, is that of a well-formed tree. -/
theorem generate_tree (order : MapOrder) {us : List Upd} (h : PrintableScore us) :
    ∃ ps, generate order (plainL us) = .ok (root ps) ∧ partsOk ps := by
  obtain ⟨h1, h2⟩ := splitParts_printable h
  obtain ⟨h3, h4⟩ := genParts_tree order _ h2
  have hf := (stretchGood order _ false false h1 .part (by simp) (by decide) (by decide)).1 rfl
  have he : (plainL (splitParts us).1).isEmpty = (splitParts us).1.isEmpty := by cases (splitParts us).1 <;> rfl
  by_cases hn : (splitParts us).1.isEmpty
  · refine ⟨(splitParts us).2.map (partTree order), ?_, fun p hp => (h4 p hp).1, fun p hp => (h4 p (List.mem_of_mem_tail hp)).2⟩
    simp only [generate, splitParts_plain, h3, ok_bind, he, if_pos hn]; rfl
  · refine ⟨.implicit (stretchOf order (splitParts us).1).flat :: (splitParts us).2.map (partTree order), ?_, ?_, fun p hp => (h4 p hp).2⟩
    · simp only [generate, splitParts_plain, h3, ok_bind, he, if_neg hn, hf.gen]; rfl
    · intro p hp
      rcases List.mem_cons.1 hp with rfl | hp
      · exact ⟨flat_ne_nil order h1 (by simpa using hn), hf.ok, hf.shape⟩
      · exact (h4 p hp).1

/-! ### Printable scores are expressible -/

theorem expressibleDur_of {d : Dur} (h : PrintableDur d) : ExpressibleDur d := by
  intro c hc
  have := h.1 c hc
  cases c with
  | beats q => exact this
  | nested cs => exact this
  | _ => trivial

mutual
theorem expressibleForm_of : ∀ f, PrintableForm f → ExpressibleForm f
  | .list fs, h => expressibleForms_of fs h
  | .quoted f, h => expressibleForm_of f h.1
  | .num _, _ | .str _, _ | .sym _, _ => trivial
  | .quoteForm, h | .fn _, h | .nil, h | .update _, h | .pitch _, h | .dur _, h => h.elim
theorem expressibleForms_of : ∀ fs, PrintableForms fs → ExpressibleForms fs
  | [], _ => trivial
  | f :: fs, h => ⟨expressibleForm_of f h.1, expressibleForms_of fs h.2⟩
end

theorem expressibleLeaf_of {l : Leaf} (h : PrintableLeaf l) : Expressible (plain (.leaf l)) := by
  cases l with
  | note p d s =>
    cases p with
    | letter l acc => exact ⟨h.1, expressibleDur_of h.2.1⟩
    | midi n => exact h.elim
  | rest d => exact expressibleDur_of (d := d) h
  | globalAttr u => exact h.elim
  | attr u =>
    cases u with
    | octave | octaveUp | octaveDown => trivial
    | dynamic m => exact h
    | keySignature ks => exact h
    | transposition n =>
      simp only [plain]
      rw [if_pos (show InInt32 n from h)]
      exact ⟨trivial, trivial, trivial⟩
    | _ => exact h.elim

theorem expressibleL_cons {v : Bool} {u : Upd} {us : List Upd} (h : Expressible u) (h2 : ExpressibleL v us) : ExpressibleL v (u :: us) := by
  cases u with
  | voice n => exact h.elim
  | voiceEnd => exact h.elim
  | _ => exact ⟨h, h2⟩

mutual
theorem expressible_of : ∀ u, Printable u → Expressible (plain u)
  | .leaf l, h => expressibleLeaf_of h
  | .lisp fs, h => expressibleForms_of fs h
  | .barline, _ | .marker _, _ | .atMarker _, _ | .varRef _, _ => trivial
  | .chord es, h => by
    refine ⟨?_, expressibleAll_of es h.2.2.2.2⟩
    have := h.1
    cases es with
    | nil => simp at this
    | cons u us => simp [plainL]
  | .cram es d, h => ⟨expressibleL_of es _ _ h.2.1, expressibleDur_of h.2.2⟩
  | .seq es, h => expressibleL_of es _ _ h
  | .rep e n, h => expressible_of e h.1
  | .onReps rs e, h => ⟨h.2.1, expressible_of e h.1⟩
  | .varDef _ _, h | .lispNil, h | .voice _, h | .voiceEnd, h | .partDecl _ _, h => h.elim
theorem expressibleAll_of : ∀ us, PrintableAll us → ExpressibleL false (plainL us)
  | [], _ => trivial
  | u :: us, h => expressibleL_cons (expressible_of u h.1) (expressibleAll_of us h.2)
theorem expressibleL_of : ∀ us b v, PrintableL b v us → ExpressibleL v (plainL us)
  | [], _, _, _ => trivial
  | u :: us, b, v, h => by
    cases u with
    | voice n => exact expressibleL_of us b true h.2.2
    | voiceEnd => exact ⟨h.1, expressibleL_of us b false h.2⟩
    | _ => exact expressibleL_cons (expressible_of _ h.1) (expressibleL_of us b v h.2.2.2)
end

theorem expressibleScore_of {us : List Upd} (h : PrintableScore us) : ExpressibleScore (plainL us) := by
  induction h with
  | events us h => exact .events _ (expressibleL_of us _ _ h)
  | part us names alias rest h hn _ _ _ ih =>
    rw [plainL_append, plainL, plain]
    exact .part _ names alias _ (expressibleL_of us _ _ h) hn ih

end Syn
end Alda
