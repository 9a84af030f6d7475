import Verif.Lemmas.Strings
import Verif.Lemmas.DepOps

/-! C23-C25, C27, C28: literal texts, clause operations and dependency sets. -/
namespace Props
open Model Spec

/-! ### C23 -/

/-- A truth value for every printed literal, negative literals having the opposite value of the
positive ones. -/
def TextValuation (v : Str → Prop) : Prop :=
  ∀ name args, GoodName name → (∀ a ∈ args, PlainArg a) →
    (v (showLit name args false) ↔ ¬ v (showLit name args true))

/-- The clauses, read as a conjunction of disjunctions, are true. -/
def CnfTrue {α : Type} (v : α → Prop) (clauses : List (Finset α)) : Prop := ∀ c ∈ clauses, ∃ x ∈ c, v x

theorem respects_text {v : Str → Prop} (hv : TextValuation v) : Respects strOps Printed v := by
  rintro _ ⟨n, a, p, hn, ha, rfl⟩
  simp only [strOps, flipStr_show hn.2.2]
  cases p
  · simp only [Bool.not_false]; rw [hv n a hn ha]; simp
  · simp only [Bool.not_true]; exact hv n a hn ha

/-- **C23.** For clauses (none of them empty) and assumptions made of printed literals, minimisation either returns
clauses with the same truth value under every valuation satisfying the assumptions, or raises
`ValueError` and then no such valuation satisfies the clauses. Whatever the iteration order of sets. -/
theorem C23_minimise (ord : Finset Str → List Str) (ho : ∀ s x, x ∈ ord s ↔ x ∈ s)
    (clauses : List (Finset Str)) (assumptions : Finset Str)
    (hc : ∀ c ∈ clauses, c ≠ ∅ ∧ ∀ x ∈ c, Printed x) (ha : ∀ x ∈ assumptions, Printed x)
    (v : Str → Prop) (hv : TextValuation v) (hva : ∀ x ∈ assumptions, v x) :
    (∃ r, minimizeCnf strOps ord clauses assumptions = .ok r ∧ (CnfTrue v r ↔ CnfTrue v clauses)) ∨
    (minimizeCnf strOps ord clauses assumptions = .error .valueError ∧ ¬ CnfTrue v clauses) := by
  have h := minimizeCnf_sound strOps_ok ho clauses assumptions (fun c hm => (hc c hm).2) ha
    (fun c hm => (hc c hm).1) v (respects_text hv) hva
  cases hr : minimizeCnf strOps ord clauses assumptions with
  | ok r => exact Or.inl ⟨r, rfl, h.1 r hr⟩
  | error e => obtain ⟨rfl, h2⟩ := h.2 e hr; exact Or.inr ⟨rfl, h2⟩

/-- The same on structured literals, for all of them. -/
theorem C23_minimise_literals (ord : Finset Lit → List Lit) (ho : ∀ s x, x ∈ ord s ↔ x ∈ s)
    (clauses : List (Finset Lit)) (assumptions : Finset Lit) (hc : ∀ c ∈ clauses, c ≠ ∅)
    (v : Lit → Prop) (hv : Valuation v) (hva : ∀ x ∈ assumptions, v x) :
    (∃ r, minimizeCnf litOps ord clauses assumptions = .ok r ∧ (CnfTrue v r ↔ CnfTrue v clauses)) ∨
    (minimizeCnf litOps ord clauses assumptions = .error .valueError ∧ ¬ CnfTrue v clauses) := by
  have h := minimizeCnf_sound litOps_ok ho clauses assumptions (fun _ _ _ _ => trivial) (fun _ _ => trivial)
    hc v (respects_of hv) hva
  cases hr : minimizeCnf litOps ord clauses assumptions with
  | ok r => exact Or.inl ⟨r, rfl, h.1 r hr⟩
  | error e => obtain ⟨rfl, h2⟩ := h.2 e hr; exact Or.inr ⟨rfl, h2⟩

/-- Without the restriction to non-empty clauses the claim is false: an empty clause (false) is dropped. -/
theorem C23_empty_clause (ord : Finset Lit → List Lit) (ho : ∀ s x, x ∈ ord s ↔ x ∈ s) (v : Lit → Prop) :
    minimizeCnf litOps ord [∅] ∅ = .ok [] ∧ CnfTrue v [] ∧ ¬ CnfTrue v [∅] := by
  refine ⟨?_, by simp [CnfTrue], by simp [CnfTrue]⟩
  rw [minimizeCnf_eq litOps_ok ho _ _ (fun _ _ _ _ => trivial) (fun _ _ => trivial)]
  simp [keptUnits, unionAll, pure, Except.pure]

/-- Negating a disjunction of DNFs of printed literals: the clauses are true exactly when no conjunction of any of
the DNFs is. -/
theorem C23_negate (dnfs : List (List (List Str))) (hp : ∀ d ∈ dnfs, ∀ c ∈ d, ∀ x ∈ c, Printed x)
    (v : Str → Prop) (hv : TextValuation v) :
    CnfTrue v (negateToCnf strOps dnfs) ↔ ¬ ∃ d ∈ dnfs, ∃ c ∈ d, ∀ x ∈ c, v x := by
  have key : ∀ x, Printed x → (v (strOps.flip x) ↔ ¬ v x) := respects_text hv
  simp only [CnfTrue, negateToCnf, List.mem_flatMap, List.mem_map]
  constructor
  · rintro h ⟨d, hd, c, hc, hx⟩
    obtain ⟨y, hy, hvy⟩ := h _ ⟨d, hd, c, hc, rfl⟩
    simp only [List.mem_toFinset, List.mem_map] at hy
    obtain ⟨x, hxc, rfl⟩ := hy
    exact (key x (hp d hd c hc x hxc)).mp hvy (hx x hxc)
  · rintro h _ ⟨d, hd, c, hc, rfl⟩
    by_contra hno
    refine h ⟨d, hd, c, hc, fun x hx => ?_⟩
    by_contra hvx
    exact hno ⟨strOps.flip x, by simp only [List.mem_toFinset, List.mem_map]; exact ⟨x, hx, rfl⟩,
      (key x (hp d hd c hc x hx)).mpr hvx⟩

def tA : Str := showLit "at".toList ["?x".toList] true
def tB : Str := showLit "on-top".toList ["?x".toList, "?y".toList] false
def tC : Str := showLit "clear".toList [] true
def notC : Str := showLit "clear".toList [] false

/-- A non-trivial run: `(¬clear ∨ at) ∧ clear ∧ (¬on-top ∨ clear)` becomes `clear ∧ at`. -/
example : minimizeCnf strOps (enumOf [tA, tB, tC, notC]) [{notC, tA}, {tC}, {tB, tC}] ∅ = .ok [{tC}, {tA}] := by
  decide +kernel

/-- `¬(¬clear ∨ (at ∧ ¬on-top))` is `clear ∧ (¬at ∨ on-top)`. -/
example : negateToCnf strOps [[[notC]], [[tA, tB]]]
    = [{tC}, {showLit "at".toList ["?x".toList] false, showLit "on-top".toList ["?x".toList, "?y".toList] true}] := by
  decide +kernel

example : Printed tA ∧ Printed tB ∧ Printed tC ∧ Printed notC :=
  ⟨⟨_, _, _, by decide, by decide, rfl⟩, ⟨_, _, _, by decide, by decide, rfl⟩,
   ⟨_, _, _, by decide, by decide, rfl⟩, ⟨_, _, _, by decide, by decide, rfl⟩⟩

/-- Contradictory clauses are rejected. -/
example : minimizeCnf strOps (enumOf [tA, tB, tC, notC]) [{tC}, {notC}] ∅ = .error .valueError := by decide +kernel

def tHyp1 : Str := showLit "at".toList ["?to-loc".toList] true
def tHyp2 : Str := showLit "at".toList ["?from-loc".toList] true

/-- Arguments with a hyphen (legal PDDL) are not matched by the regular expression: the call fails
with `AttributeError` on a clause of two such literals, in any iteration order. -/
theorem C23_hyphen_crash (ord : Finset Str → List Str) (ho : ∀ s x, x ∈ ord s ↔ x ∈ s) :
    minimizeCnf strOps ord [{tHyp1, tHyp2}] ∅ = .error .attributeError := by
  have hempty : ord ∅ = [] := List.eq_nil_iff_forall_not_mem.mpr fun x hx => by simpa using (ho ∅ x).mp hx
  have hk : keptUnits [({tHyp1, tHyp2} : Finset Str)] ∅ = [] := by decide +kernel
  have hf : [({tHyp1, tHyp2} : Finset Str)].filter (fun c => 1 < c.card) = [{tHyp1, tHyp2}] := by decide +kernel
  have h1 : strOps.core tHyp1 = .error .attributeError := by decide +kernel
  have h2 : strOps.core tHyp2 = .error .attributeError := by decide +kernel
  have hne : tHyp1 ≠ tHyp2 := by decide +kernel
  -- the first pair of the enumeration starts with one of the two texts
  have hc : checkCompl strOps (ord {tHyp1, tHyp2}) = .error .attributeError := by
    have m1 := (ho {tHyp1, tHyp2} tHyp1).mpr (by simp)
    have m2 := (ho {tHyp1, tHyp2} tHyp2).mpr (by simp)
    have hall : ∀ x ∈ ord {tHyp1, tHyp2}, strOps.core x = .error .attributeError := by
      intro x hx
      have := (ho _ x).mp hx
      simp only [Finset.mem_insert, Finset.mem_singleton] at this
      rcases this with rfl | rfl
      · exact h1
      · exact h2
    match h : ord {tHyp1, tHyp2} with
    | [] => rw [h] at m1; simp at m1
    | [x] =>
      rw [h] at m1 m2; simp only [List.mem_singleton] at m1 m2
      exact absurd (m1.trans m2.symm) hne
    | x :: y :: l =>
      have hx := hall x (by rw [h]; simp)
      simp only [checkCompl, Py.combs, List.map_cons, List.cons_append, complPairs, hx]
      rfl
  unfold minimizeCnf
  simp only [hk, hf, unionAll, List.foldr_nil, hempty]
  rw [show checkCompl strOps ([] : List Str) = .ok false from rfl]
  simp only [bind, Except.bind, Bool.false_eq_true, if_false, List.foldlM_cons, minimizeStep, hc]

/-! ### C24 -/

/-- **C24.** Flipping the text of a literal gives the text of the literal with the opposite sign, and
flipping twice gives the text back; for every name not starting with `not` and any arguments. -/
theorem C24_flip (name : Str) (args : List Str) (pos : Bool) (h : startsWith "not".toList name = false) :
    flipStr (showLit name args pos) = showLit name args (!pos) ∧
    flipStr (flipStr (showLit name args pos)) = showLit name args pos := by
  rw [flipStr_show h, flipStr_show h, Bool.not_not]
  exact ⟨rfl, rfl⟩

/-- Negative literals of any name are flipped correctly. -/
theorem C24_flip_negative (name : Str) (args : List Str) :
    flipStr (showLit name args false) = showLit name args true := flipStr_neg name args

/-- A name starting with `not` breaks it: the positive literal is cut, not negated. -/
theorem C24_not_prefix :
    flipStr (showLit "notempty".toList ["?x".toList] true) = "mpty ?x".toList := by decide +kernel

example : startsWith "not".toList "on-table".toList = false := by decide
example : startsWith "not".toList "no".toList = false := by decide

/-! ### C25 -/

/-- **C25.** Parsing the printed text of a literal whose (distinct) arguments are in the table gives the name, the
arguments in order with their types, and the sign. -/
theorem C25_roundtrip (table : List (Str × PType)) (name : Str) (args : List Str) (pos : Bool)
    (hn : Token name) (hnot : name ≠ "not".toList) (ha : ∀ a ∈ args, Token a) (hd : args.Nodup)
    (ty : Str → PType) (ht : ∀ a ∈ args, table.lookup a = some (ty a)) :
    parseLit table (showLit name args pos) = .ok ⟨name, args.map fun a => (a, ty a), pos⟩ := by
  rw [parse_tokens hn hnot ha, mapM_lookup_ok ht]
  simp only [bind, Except.bind]
  rw [Py.dictOf_of_nodup]
  simpa [List.map_map, Function.comp_def] using hd

/-- An argument outside the table raises `KeyError`. -/
theorem C25_unknown_argument (table : List (Str × PType)) (name : Str) (args : List Str) (pos : Bool)
    (hn : Token name) (hnot : name ≠ "not".toList) (ha : ∀ a ∈ args, Token a)
    (h : ∃ a ∈ args, table.lookup a = none) :
    parseLit table (showLit name args pos) = .error .keyError := by
  rw [parse_tokens hn hnot ha, mapM_lookup_err h]
  rfl

/-- Different literals have different texts (names and arguments being tokens). -/
theorem C25_show_injective {n m : Str} {a b : List Str} {p q : Bool} (hn : Token n) (hm : Token m)
    (hn' : n ≠ "not".toList) (hm' : m ≠ "not".toList) (ha : ∀ x ∈ a, Token x) (hb : ∀ x ∈ b, Token x)
    (h : showLit n a p = showLit m b q) : n = m ∧ a = b ∧ p = q := by
  have key : ∀ {n : Str} {a : List Str} {p : Bool}, Token n → n ≠ "not".toList → (∀ x ∈ a, Token x) →
      ((startsWith "(not ".toList (showLit n a p)) = !p) := by
    intro n a p hn hn' ha
    cases p with
    | false => rw [showLit_neg]; simp [startsWith, List.isPrefixOf]
    | true =>
      rw [showLit_pos]
      simp only [startsWith, baseText]
      have htok : ∀ c ∈ n, c ≠ ' ' := fun c hc => (hn.2 c hc).1
      match n with
      | [] => exact absurd rfl hn.1
      | [c] => simp [List.isPrefixOf]
      | [c, d] => simp [List.isPrefixOf]
      | [c, d, e] => revert hn'; simp [List.isPrefixOf]; grind
      | c :: d :: e :: f :: n =>
        have : f ≠ ' ' := htok f (by simp)
        simp [List.isPrefixOf]; grind
  have hpq : p = q := by
    have h1 := key hn hn' ha (p := p)
    have h2 := key hm hm' hb (p := q)
    rw [h, h2] at h1
    simpa using h1.symm
  subst hpq
  have hbase : baseText n a = baseText m b := by
    cases p
    · simp only [showLit_neg, List.cons.injEq, true_and] at h; exact List.append_cancel_right h
    · exact h
  have hbody : n ++ ' ' :: joinSp a = m ++ ' ' :: joinSp b := by
    simp only [baseText, List.cons.injEq, true_and] at hbase
    rw [← List.cons_append, ← List.cons_append, ← List.append_assoc, ← List.append_assoc] at hbase
    exact List.append_cancel_right hbase
  have := parse_data hn ha
  rw [hbody, parse_data hm hb] at this
  simp only [List.cons.injEq] at this
  exact ⟨this.1.symm, this.2.symm, rfl⟩

/-- A predicate called `not` is read back as a negative literal with the wrong name. -/
theorem C25_named_not :
    parseLit [("a".toList, ⟨"t", []⟩), ("b".toList, ⟨"t", []⟩)] (showLit "not".toList ["a".toList, "b".toList] true)
      = .ok ⟨"(not".toList, [("a".toList, ⟨"t", []⟩), ("b".toList, ⟨"t", []⟩)], false⟩ := by decide +kernel

/-- Repeated arguments collapse: the parsed literal has fewer arguments. -/
theorem C25_repeated_argument (t : PType) :
    parseLit [("a".toList, t)] (showLit "p".toList ["a".toList, "a".toList] true)
      = .ok ⟨"p".toList, [("a".toList, t)], true⟩ := by rfl

example : Token "on-top".toList ∧ "on-top".toList ≠ "not".toList ∧ (∀ a ∈ ["?x-1".toList, "c".toList], Token a) ∧
    ["?x-1".toList, "c".toList].Nodup := by decide

/-! ### C27 -/

/-- **C27.** After initialisation the results are exactly the given literals; each has as candidates exactly the
non-empty sets of at most `n` (antecedent) literals, each once. -/
theorem C27_candidates (ord : Finset Lit → List Lit) (ho : EnumNodup ord) (n : Nat) (lifted : Finset Lit)
    (antecedents : Option (Finset Lit)) :
    (∀ l, l ∉ lifted → ((DepSet.new n).initialize ord lifted antecedents).possible.lookup l = none) ∧
    ∀ l ∈ lifted, ∃ cands, ((DepSet.new n).initialize ord lifted antecedents).possible.lookup l = some cands ∧
      cands.Nodup ∧ ∀ A, A ∈ cands ↔ A ⊆ antecedents.getD lifted ∧ A ≠ ∅ ∧ A.card ≤ n := by
  refine ⟨fun l hl => ?_, fun l hl => ⟨createCnf ord (antecedents.getD lifted) n, ?_, createCnf_nodup ho _ _,
    fun A => mem_createCnf ho⟩⟩
  · rw [lookup_initialize ho.mem]; simp [hl]
  · rw [lookup_initialize ho.mem]; simp [hl]

/-- Removal without supersets discards exactly the candidates all of whose literals are removed, with
supersets exactly those that contain a removed literal; other results keep their candidates. -/
theorem C27_removal (ord : Finset Lit → List Lit) (ho : EnumNodup ord) (d : DepSet)
    (hd : ∀ l cs, d.possible.lookup l = some cs → cs.Nodup ∧ ∀ c ∈ cs, c ≠ ∅ ∧ c.card ≤ d.maxAnte)
    (l : Lit) (rm : Finset Lit) (sup : Bool) (l' : Lit) (A : Finset Lit) :
    (∃ cs, (d.remove ord l rm sup).possible.lookup l' = some cs ∧ A ∈ cs) ↔
      (∃ cs, d.possible.lookup l' = some cs ∧ A ∈ cs) ∧
        ¬ (l' = l ∧ if sup then (∃ x ∈ A, x ∈ rm) else A ⊆ rm) := by
  have hok : d.OK := fun l cs h => ⟨(hd l cs h).1, (hd l cs h).2⟩
  rw [lookup_remove ho hok]
  cases h : d.possible.lookup l' with
  | none => simp
  | some cs =>
    simp only [Option.map_some, Option.some.injEq, exists_eq_left']
    by_cases hl : l' = l
    · simp only [hl, if_true, List.mem_filter, decide_eq_true_eq, true_and]
      cases sup <;> simp
    · simp [hl]

/-- Removing the preconditions: a precondition is no longer a result, and the candidates of another result are those
that mention no precondition. -/
theorem C27_preconditions (ord : Finset Lit → List Lit) (ho : EnumNodup ord) (d : DepSet)
    (hd : ∀ l cs, d.possible.lookup l = some cs → cs.Nodup ∧ ∀ c ∈ cs, c ≠ ∅ ∧ c.card ≤ d.maxAnte)
    (pre : Finset Lit) (l : Lit) :
    (l ∈ pre → (d.removePre ord pre).possible.lookup l = none) ∧
    (l ∉ pre → ((d.removePre ord pre).possible.lookup l = none ↔ d.possible.lookup l = none) ∧
      ∀ A, (∃ cs, (d.removePre ord pre).possible.lookup l = some cs ∧ A ∈ cs) ↔
        (∃ cs, d.possible.lookup l = some cs ∧ A ∈ cs) ∧ ∀ x ∈ A, x ∉ pre) := by
  have hok : d.OK := fun l cs h => ⟨(hd l cs h).1, (hd l cs h).2⟩
  rw [lookup_removePre ho hok]
  refine ⟨fun h => by simp [h], fun h => ?_⟩
  cases hl : d.possible.lookup l with
  | none => simp [h]
  | some cs => simp [h]

def lp : Lit := ⟨"p", ["?x"], true⟩
def lq : Lit := ⟨"q", [], true⟩

example : ((DepSet.new 2).initialize (enumOf [lp, lq, lp.neg, lq.neg]) {lp, lq}).possible
    = [(lp, [{lp}, {lq}, {lp, lq}]), (lq, [{lp}, {lq}, {lp, lq}])] := by decide +kernel

/-! ### C28 -/

/-- **C28.** For every dependency set whose candidates are not empty, every set of preconditions and every result
literal: the restrictive precondition is built without error, and in every state satisfying the
preconditions it holds exactly when the literal is already true, or no candidate antecedent holds, or (for an
observed effect) all candidate antecedents hold. `None` stands for no condition. Whatever the order of
sets and whatever implementation of `add_condition` that means conjunction/disjunction. -/
theorem C28_restrictive_exact (add : Cond → Cond → Cond) (hadd : AddOK add)
    (ord : Finset Lit → List Lit) (ho : ∀ s x, x ∈ ord s ↔ x ∈ s) (d : DepSet) (pre : Finset Lit) (literal : Lit)
    (isEffect : Bool) (cands : List (Finset Lit)) (hl : d.possible.lookup literal = some cands)
    (hne : ∀ A ∈ cands, A ≠ ∅) :
    ∃ r, d.restrictive add ord pre literal isEffect = .ok r ∧
      ∀ v, Valuation v → (∀ l ∈ pre, v l) →
        ((match r with | none => True | some c => Cond.eval v c) ↔
          v literal ∨ (∀ A ∈ cands, ¬ ∀ x ∈ A, v x) ∨ (isEffect = true ∧ ∀ A ∈ cands, ∀ x ∈ A, v x)) := by
  obtain ⟨r, h1, h2⟩ := restrictive_spec hadd ho d pre literal isEffect cands hl hne
  refine ⟨r, h1, fun v hv hp => ?_⟩
  have := h2 v hv hp
  cases r <;> exact this

/-- The plain `add_condition` satisfies the assumption. -/
example : AddOK plainAdd := plainAdd_ok

/-- Evaluation of the example below. -/
noncomputable def c28r : Except Err (Option Cond) :=
  DepSet.restrictive plainAdd (enumOf [lp, lq, lp.neg, lq.neg]) ⟨[(⟨"r", [], true⟩, [{lp}, {lq}, {lp, lq}])], 2⟩
    {lq.neg} ⟨"r", [], true⟩ false

/-- With `¬q` a precondition, an unsafe `r` with candidates `p`, `q`, `p ∧ q` requires `r ∨ ¬p`. -/
example : c28r = .ok (some (.node .or [.lit ⟨"r", [], true⟩, .lit lp.neg])) := by
  unfold c28r DepSet.restrictive
  have e1 : negatedMinimized (enumOf [lp, lq, lp.neg, lq.neg]) [{lp}, {lq}, {lp, lq}] {lq.neg}
      = .ok (.clauses [{lp.neg}]) := by decide +kernel
  have e0 : (⟨"r", [], true⟩ : Lit) ∉ ({lq.neg} : Finset Lit) := by decide
  have e3 : (Lit.neg ⟨"r", [], true⟩ : Lit) ∉ ({lq.neg} : Finset Lit) := by decide
  have e4 : enumOf [lp, lq, lp.neg, lq.neg] {lp.neg} = [lp.neg] := by decide +kernel
  simp only [e0, if_false, List.lookup_cons, beq_self_eq_true, e1]
  simp only [bind, Except.bind, Bool.false_eq_true, if_false, e3, negatedCond, clauseCond, e4, plainAdd, List.nil_append,
    List.cons_append, postProcessTrue, litOperands]
  rw [show checkCompl litOps [(⟨"r", [], true⟩ : Lit), lp.neg] = .ok false by decide +kernel]
  rfl

end Props
