import Verif.Model.Dnf
import Verif.Props.Logic

/-! C138: disjunctive antecedents. -/
namespace Props
open Model Spec

namespace Dnf

section
variable {β : Type} [LinearOrder β]

theorem sortedBy_mem {l : List β} {x : β} : x ∈ sortedBy l ↔ x ∈ l := by
  unfold sortedBy; exact List.mem_insertionSort _

theorem sortedBy_length (l : List β) : (sortedBy l).length = l.length := by
  unfold sortedBy; exact List.length_insertionSort _ _

theorem sortedBy_strict {l : List β} (h : l.Nodup) : (sortedBy l).Pairwise (· < ·) := by
  have h1 : (sortedBy l).Pairwise (· ≤ ·) := by unfold sortedBy; exact List.pairwise_insertionSort _ _
  have h2 : (sortedBy l).Nodup := (List.perm_insertionSort (· ≤ ·) l).nodup_iff.mpr h
  exact (h1.and h2).imp fun ⟨a, b⟩ => lt_of_le_of_ne a b

theorem sortedBy_eq {l X : List β} (h : l.Nodup) (hX : X.Pairwise (· < ·)) (hm : ∀ x, x ∈ l ↔ x ∈ X) : sortedBy l = X := by
  have h1 : (sortedBy l).Pairwise (· ≤ ·) := by unfold sortedBy; exact List.pairwise_insertionSort _ _
  have hXn : X.Nodup := hX.imp fun h => ne_of_lt h
  have hp : (sortedBy l).Perm X := (List.perm_insertionSort (· ≤ ·) l).trans ((List.perm_ext_iff_of_nodup h hXn).mpr hm)
  exact hp.eq_of_pairwise (fun a b _ _ => le_antisymm) h1 (hX.imp fun h => le_of_lt h)

end

section
variable {ord : Finset Str → List Str} {S : Finset Str} {n : Nat}

theorem mem_conjunctions (ho : EnumNodup ord) {c : List Str} :
    c ∈ conjunctions ord S n ↔ c ≠ [] ∧ c.Pairwise (· < ·) ∧ (∀ l ∈ c, l ∈ S) ∧ c.length ≤ n := by
  unfold conjunctions
  rw [List.mem_map]
  have hlen : ∀ s, (ord s).length = s.card := by
    intro s
    rw [← List.toFinset_card_of_nodup (ho.nodup s)]
    congr 1
    ext x; simp [ho.mem]
  constructor
  · rintro ⟨s, hs, rfl⟩
    obtain ⟨h1, h2, h3⟩ := (mem_createCnf ho).mp hs
    refine ⟨?_, sortedBy_strict (ho.nodup s), fun l hl => h1 ((ho.mem s l).mp (sortedBy_mem.mp hl)), ?_⟩
    · intro e
      have := congrArg List.length e
      rw [sortedBy_length, hlen] at this
      exact h2 (Finset.card_eq_zero.mp this)
    · rw [sortedBy_length, hlen]; exact h3
  · rintro ⟨h1, h2, h3, h4⟩
    have hn : c.Nodup := h2.imp fun h => ne_of_lt h
    refine ⟨c.toFinset, (mem_createCnf ho).mpr ⟨fun l hl => h3 l (List.mem_toFinset.mp hl), ?_, ?_⟩, ?_⟩
    · rw [Ne, List.toFinset_eq_empty_iff]; exact h1
    · rw [List.toFinset_card_of_nodup hn]; exact h4
    · exact sortedBy_eq (ho.nodup _) h2 fun x => by rw [ho.mem, List.mem_toFinset]

theorem conjunctions_nodup (ho : EnumNodup ord) : (conjunctions ord S n).Nodup := by
  unfold conjunctions
  apply List.Nodup.map_on _ (createCnf_nodup ho S n)
  intro a _ b _ e
  ext x
  rw [← ho.mem a, ← ho.mem b, ← sortedBy_mem, e, sortedBy_mem]

theorem mem_allDisjunctions (ho : EnumNodup ord) {X : List (List Str)} :
    X ∈ allDisjunctions ord S n ↔ 2 ≤ X.length ∧ X.length ≤ n ∧ X.Pairwise (· < ·) ∧ ∀ c ∈ X, c ∈ conjunctions ord S n := by
  unfold allDisjunctions
  simp only [List.mem_flatMap, List.mem_range'_1, List.mem_map]
  constructor
  · rintro ⟨i, hi, Y, hY, rfl⟩
    obtain ⟨h1, h2⟩ := Py.mem_combs.mp hY
    refine ⟨by rw [sortedBy_length]; omega, by rw [sortedBy_length]; omega, sortedBy_strict (h2.nodup (conjunctions_nodup ho)),
      fun c hc => h2.subset (sortedBy_mem.mp hc)⟩
  · rintro ⟨h1, h2, h3, h4⟩
    have hn : X.Nodup := h3.imp fun h => ne_of_lt h
    have hmem : ∀ x, x ∈ (conjunctions ord S n).filter (fun c => decide (c ∈ X)) ↔ x ∈ X := by
      intro x
      simp only [List.mem_filter, decide_eq_true_eq]
      exact ⟨fun h => h.2, fun h => ⟨h4 x h, h⟩⟩
    have hfn := (conjunctions_nodup (S := S) (n := n) ho).filter fun c => decide (c ∈ X)
    refine ⟨X.length, ⟨h1, by omega⟩, _, Py.mem_combs.mpr ⟨?_, List.filter_sublist⟩, sortedBy_eq hfn h3 hmem⟩
    exact ((List.perm_ext_iff_of_nodup hfn hn).mpr hmem).length_eq

theorem keep_iff {X : List (List Str)} : keepDisjunction n X = true ↔ X.flatten.Nodup ∧ X.flatten.length ≤ n := by
  unfold keepDisjunction
  rw [← List.length_flatten]
  simp only [Bool.not_eq_true', Bool.or_eq_false_iff, decide_eq_false_iff_not, not_lt, gt_iff_lt, ne_eq, Decidable.not_not]
  constructor
  · rintro ⟨h1, h2⟩
    exact ⟨Multiset.coe_nodup.mp (Multiset.toFinset_card_eq_card_iff_nodup.mp h2.symm), h1⟩
  · rintro ⟨h1, h2⟩
    exact ⟨h2, (List.toFinset_card_of_nodup h1).symm⟩

/-- **C138 (combinations).** `create_dnf_combinations` returns every disjunction of at least two
conjunctions over the antecedents with at most `n` literals, no literal twice, and nothing else. -/
theorem C138_combinations (ho : EnumNodup ord) (X : List (List Str)) : X ∈ createDnf ord S n ↔ Disjunction S n X := by
  unfold createDnf
  rw [List.mem_insertionSort, List.mem_filter, mem_allDisjunctions ho, keep_iff]
  have hle : (∀ c ∈ X, c ≠ []) → X.length ≤ X.flatten.length := by
    intro h
    induction X with
    | nil => simp
    | cons c X ih =>
      have h1 := ih fun d hd => h d (List.mem_cons_of_mem _ hd)
      have h2 := List.length_pos_iff.mpr (h c (by simp))
      simp only [List.flatten_cons, List.length_append, List.length_cons]
      omega
  constructor
  · rintro ⟨⟨h1, h2, h3, h4⟩, h5, h6⟩
    exact ⟨h1, h3, fun c hc => by
      obtain ⟨k1, k2, k3, _⟩ := (mem_conjunctions ho).mp (h4 c hc); exact ⟨k1, k2, k3⟩, h5, h6⟩
  · rintro ⟨h1, h2, h3, h4, h5⟩
    refine ⟨⟨h1, (hle fun c hc => (h3 c hc).1).trans h5, h2, fun c hc => (mem_conjunctions ho).mpr ?_⟩, h4, h5⟩
    refine ⟨(h3 c hc).1, (h3 c hc).2.1, (h3 c hc).2.2, ?_⟩
    exact (List.Sublist.length_le (List.sublist_flatten_of_mem hc)).trans h5

/-- C138: each of them once, sorted by size, then number of conjunctions, then the text of the literals. -/
theorem C138_order (ho : EnumNodup ord) : (createDnf ord S n).Nodup ∧
    (createDnf ord S n).Pairwise fun X Y => X.flatten.length < Y.flatten.length ∨ (X.flatten.length = Y.flatten.length ∧
      (X.length < Y.length ∨ (X.length = Y.length ∧ X.flatten.flatten ≤ Y.flatten.flatten))) := by
  constructor
  · unfold createDnf
    rw [(List.perm_insertionSort _ _).nodup_iff]
    apply List.Nodup.filter
    unfold allDisjunctions
    rw [List.nodup_flatMap]
    constructor
    · intro i _
      apply List.Nodup.map_on _ (combs_nodup (conjunctions_nodup ho) i)
      intro a ha b hb e
      apply sublist_ext (conjunctions_nodup ho) (Py.mem_combs.mp ha).2 (Py.mem_combs.mp hb).2
      ext x
      rw [List.mem_toFinset, List.mem_toFinset, ← sortedBy_mem, e, sortedBy_mem]
    · have : (List.range' 2 (n - 1)).Pairwise (· ≠ ·) := List.nodup_range'
      refine this.imp ?_
      intro i j hij
      simp only [Function.onFun]
      rw [List.disjoint_left]
      intro c hc hc'
      obtain ⟨a, ha, rfl⟩ := List.mem_map.mp hc
      obtain ⟨b, hb, e⟩ := List.mem_map.mp hc'
      have h := congrArg List.length e
      rw [sortedBy_length, sortedBy_length, (Py.mem_combs.mp ha).1, (Py.mem_combs.mp hb).1] at h
      exact hij h.symm
  · unfold createDnf
    have : Std.Total (fun x y : List (List Str) => dnfKey x ≤ dnfKey y) := ⟨fun x y => le_total _ _⟩
    have : IsTrans (List (List Str)) (fun x y => dnfKey x ≤ dnfKey y) := ⟨fun _ _ _ => le_trans⟩
    refine (List.pairwise_insertionSort (fun x y : List (List Str) => dnfKey x ≤ dnfKey y) _).imp ?_
    intro X Y h
    unfold dnfKey at h
    rw [Prod.Lex.toLex_le_toLex, Prod.Lex.toLex_le_toLex, ← List.length_flatten, ← List.length_flatten] at h
    exact h

end

/-! ### Minimisation -/

/-- Truth of what a literal is compiled to. -/
def LeafTrue (v : Str → Prop) : Leaf → Prop
  | .const b => b = true
  | .sym s p => if p then v s else ¬ v s

/-- What is assumed of sympy: the result is a constant with the value of the expression, or a formula with the same value, without
empty conjunctions and disjunctions. -/
def Simplifies (simplify : List (List (List Leaf)) → Bool ⊕ Form) : Prop := ∀ e, match simplify e with
  | .inl b => ∀ v : Str → Prop, DnfsTrue (LeafTrue v) e ↔ b = true
  | .inr F => F.Proper ∧ ∀ v : Str → Prop, F.Holds v ↔ DnfsTrue (LeafTrue v) e

theorem joinSp_texts {x : Str} {xs : List Str} : joinSp (x :: xs) = x ++ (xs.flatMap fun y => ' ' :: y) := by
  induction xs generalizing x with
  | nil => simp [joinSp]
  | cons y ys ih => rw [joinSp, ih]; simp; simp

mutual
theorem transform_text : (F : Form) → F.Proper → transform F = F.text
  | .atom s, _ => by simp [transform, Form.text]
  | .neg f, h => by
    have := transform_text f (by simpa [Form.Proper] using h)
    simp [transform, Form.text, this]
  | .conj [], h => by simp [Form.Proper] at h
  | .conj [f], h => by
    have := transform_text f (by simpa [Form.Proper, Form.AllProper] using h)
    simp [transform, transformAll, Form.text, this]
  | .conj (f :: g :: fs), h => by
    have := transformAll_texts (f :: g :: fs) (by simp only [Form.Proper] at h; exact h.2)
    simp only [transformAll] at this
    simp only [transform, transformAll, Form.text, joinSp_texts]
    rw [← this]
    simp
  | .disj [], h => by simp [Form.Proper] at h
  | .disj [f], h => by
    have := transform_text f (by simpa [Form.Proper, Form.AllProper] using h)
    simp [transform, transformAll, Form.text, this]
  | .disj (f :: g :: fs), h => by
    have := transformAll_texts (f :: g :: fs) (by simp only [Form.Proper] at h; exact h.2)
    simp only [transformAll] at this
    simp only [transform, transformAll, Form.text, joinSp_texts]
    rw [← this]
    simp
theorem transformAll_texts : (fs : List Form) → Form.AllProper fs → (transformAll fs).flatMap (fun y => ' ' :: y) = Form.texts fs
  | [], _ => by simp [transformAll, Form.texts]
  | f :: fs, h => by
    simp only [Form.AllProper] at h
    have h1 := transform_text f h.1
    have h2 := transformAll_texts fs h.2
    simp [transformAll, Form.texts, h1, h2]
end

section
variable {simplify : List (List (List Leaf)) → Bool ⊕ Form} {E : List (List (List Str))} {A : Finset Str} {v : Str → Prop}

theorem compileLit_true {l : Str} (hl : Printed l) (hv : TextValuation v) (hA : ∀ x ∈ A, v x) :
    LeafTrue v (compileLit A l) ↔ v l := by
  obtain ⟨nm, args, p, hn, ha, rfl⟩ := hl
  have hval := hv nm args hn ha
  unfold compileLit
  split
  · rename_i h; simp [LeafTrue, hA _ h]
  · cases p
    · have hf : ((showLit nm args false).drop 5).dropLast = showLit nm args true := by
        have := flipStr_show hn.2.2 args false
        unfold flipStr at this
        rw [if_pos (startsWith_neg nm args)] at this
        simpa using this
      rw [hf, startsWith_neg]
      by_cases h : showLit nm args true ∈ A
      · have := hA _ h
        simp [h, LeafTrue, hval, this]
      · simp [h, LeafTrue, hval]
    · rw [startsWith_pos hn.2.2]
      simp [LeafTrue]

theorem compileDnf_true (hE : ∀ D ∈ E, ∀ C ∈ D, ∀ l ∈ C, Printed l) (hv : TextValuation v) (hA : ∀ x ∈ A, v x) :
    DnfsTrue (LeafTrue v) (compileDnf A E) ↔ DnfsTrue v E := by
  unfold DnfsTrue compileDnf
  simp only [List.mem_map, forall_exists_index, and_imp, forall_apply_eq_imp_iff₂, exists_exists_and_eq_and]
  refine forall₂_congr fun D hD => ?_
  refine exists_congr fun C => and_congr_right fun hC => ?_
  refine forall₂_congr fun l hl => compileLit_true (hE D hD C hC l hl) hv hA

/-- **C138 (minimisation).** The text that `minimize_dnf_clauses` returns is that of a formula which has the
value of the expression under every valuation satisfying the assumptions. -/
theorem C138_minimise (hs : Simplifies simplify) (hE : ∀ D ∈ E, ∀ C ∈ D, ∀ l ∈ C, Printed l) {t : Str}
    (h : minimizeDnf simplify E A = some t) :
    ∃ F : Form, t = F.text ∧ ∀ v : Str → Prop, TextValuation v → (∀ x ∈ A, v x) → (F.Holds v ↔ DnfsTrue v E) := by
  unfold minimizeDnf at h
  have := hs (compileDnf A E)
  split at h
  · cases h
  · rename_i F hF
    rw [hF] at this
    simp only [Option.some.injEq] at h
    refine ⟨F, h ▸ transform_text F this.1, fun v hv hA => ?_⟩
    rw [this.2 v, compileDnf_true hE hv hA]

/-- C138: it raises only for an expression that is always true or never true under the assumptions. -/
theorem C138_raises (hs : Simplifies simplify) (hE : ∀ D ∈ E, ∀ C ∈ D, ∀ l ∈ C, Printed l)
    (h : minimizeDnf simplify E A = none) :
    ∃ b : Bool, ∀ v : Str → Prop, TextValuation v → (∀ x ∈ A, v x) → (DnfsTrue v E ↔ b = true) := by
  unfold minimizeDnf at h
  have := hs (compileDnf A E)
  split at h
  · rename_i b hb
    rw [hb] at this
    exact ⟨b, fun v hv hA => by rw [← compileDnf_true hE hv hA, this v]⟩
  · cases h

/-- C138: an atom that is assumed is no symbol of the expression; an atom whose negation is assumed stays one. -/
theorem C138_symbols {name : Str} {args : List Str} (hn : GoodName name) :
    (showLit name args true ∈ A → ∀ l p, Printed l → compileLit A l ≠ .sym (showLit name args true) p) ∧
    (showLit name args true ∉ A → compileLit A (showLit name args true) = .sym (showLit name args true) true) := by
  constructor
  · rintro h l p ⟨nm, as, q, hn', ha', rfl⟩ e
    unfold compileLit at e
    split at e
    · cases e
    · rename_i hnot
      split at e
      · cases e
      · rename_i h2
        simp only [Leaf.sym.injEq] at e
        cases q
        · rw [startsWith_neg] at e h2
          simp only [Bool.not_true, Bool.false_eq_true, if_false, Bool.true_and, decide_eq_true_eq] at e h2
          exact h2 (e.1 ▸ h)
        · rw [startsWith_pos hn'.2.2] at e
          simp only [Bool.not_false, if_true] at e
          exact hnot (e.1 ▸ h)
  · intro h
    unfold compileLit
    rw [if_neg h, startsWith_pos hn.2.2]
    simp

end

/-! ### Concrete cases -/

/-- The antecedents `a`, `b`, `c`; one of them has a conjunction. -/
example {ord : Finset Str → List Str} (ho : EnumNodup ord) :
    [["(a )".toList], ["(b )".toList, "(c )".toList]] ∈ createDnf ord {"(a )".toList, "(b )".toList, "(c )".toList} 3 ∧
    [["(a )".toList, "(b )".toList], ["(b )".toList, "(c )".toList]] ∉ createDnf ord {"(a )".toList, "(b )".toList, "(c )".toList} 4 ∧
    [["(a )".toList], ["(b )".toList, "(c )".toList]] ∉ createDnf ord {"(a )".toList, "(b )".toList, "(c )".toList} 2 := by
  rw [C138_combinations ho, C138_combinations ho, C138_combinations ho]
  refine ⟨⟨by decide, by decide +kernel, by decide +kernel, by decide +kernel, by decide +kernel⟩, ?_, ?_⟩
  · intro h; exact absurd h.once (by decide +kernel)
  · intro h; exact absurd h.size (by decide +kernel)

/-- Always true. -/
def top : Form := .disj [.atom [], .neg (.atom [])]
/-- Never true. -/
def bot : Form := .neg top
/-- The formula of a leaf. -/
def leafForm : Leaf → Form
  | .const true => top
  | .const false => bot
  | .sym s true => .atom s
  | .sym s false => .neg (.atom s)
/-- A conjunction, possibly empty. -/
def conjOf (fs : List Form) : Form := if fs = [] then top else .conj fs
/-- A disjunction, possibly empty. -/
def disjOf (fs : List Form) : Form := if fs = [] then bot else .disj fs
/-- The expression itself as a formula. -/
noncomputable def plainForm (e : List (List (List Leaf))) : Form := conjOf (e.map fun D => disjOf (D.map fun C => conjOf (C.map leafForm)))

theorem top_holds (v : Str → Prop) : top.Holds v := by
  simp only [top, Form.Holds, Form.SomeHolds, or_false]; exact Classical.em _

theorem allHold_iff {v : Str → Prop} {fs : List Form} : Form.AllHold v fs ↔ ∀ f ∈ fs, f.Holds v := by
  induction fs with
  | nil => simp [Form.AllHold]
  | cons f fs ih => simp [Form.AllHold, ih]

theorem someHolds_iff {v : Str → Prop} {fs : List Form} : Form.SomeHolds v fs ↔ ∃ f ∈ fs, f.Holds v := by
  induction fs with
  | nil => simp [Form.SomeHolds]
  | cons f fs ih => simp [Form.SomeHolds, ih]

theorem allProper_iff {fs : List Form} : Form.AllProper fs ↔ ∀ f ∈ fs, f.Proper := by
  induction fs with
  | nil => simp [Form.AllProper]
  | cons f fs ih => simp [Form.AllProper, ih]

theorem conjOf_holds {v : Str → Prop} {fs : List Form} : (conjOf fs).Holds v ↔ ∀ f ∈ fs, f.Holds v := by
  unfold conjOf
  split
  · rename_i h; subst h; simp [top_holds]
  · simp [Form.Holds, allHold_iff]

theorem disjOf_holds {v : Str → Prop} {fs : List Form} : (disjOf fs).Holds v ↔ ∃ f ∈ fs, f.Holds v := by
  unfold disjOf
  split
  · rename_i h; subst h; simp [bot, Form.Holds, top_holds]
  · simp [Form.Holds, someHolds_iff]

theorem conjOf_proper {fs : List Form} (h : ∀ f ∈ fs, f.Proper) : (conjOf fs).Proper := by
  unfold conjOf
  split
  · simp [top, Form.Proper, Form.AllProper]
  · rename_i hne; simp only [Form.Proper, allProper_iff]; exact ⟨hne, h⟩

theorem disjOf_proper {fs : List Form} (h : ∀ f ∈ fs, f.Proper) : (disjOf fs).Proper := by
  unfold disjOf
  split
  · simp [bot, top, Form.Proper, Form.AllProper]
  · rename_i hne; simp only [Form.Proper, allProper_iff]; exact ⟨hne, h⟩

theorem leafForm_holds {v : Str → Prop} {l : Leaf} : (leafForm l).Holds v ↔ LeafTrue v l := by
  match l with
  | .const true => simp [leafForm, LeafTrue, top_holds]
  | .const false => simp [leafForm, LeafTrue, bot, Form.Holds, top_holds]
  | .sym s true => simp [leafForm, LeafTrue, Form.Holds]
  | .sym s false => simp [leafForm, LeafTrue, Form.Holds]

/-- What is assumed of sympy can be met: for instance by not simplifying at all. -/
theorem simplifies_plain : Simplifies fun e => .inr (plainForm e) := by
  intro e
  refine ⟨conjOf_proper ?_, fun v => ?_⟩
  · intro f hf
    obtain ⟨D, _, rfl⟩ := List.mem_map.mp hf
    refine disjOf_proper fun f hf => ?_
    obtain ⟨C, _, rfl⟩ := List.mem_map.mp hf
    refine conjOf_proper fun f hf => ?_
    obtain ⟨l, _, rfl⟩ := List.mem_map.mp hf
    match l with
    | .const true => simp [leafForm, top, Form.Proper, Form.AllProper]
    | .const false => simp [leafForm, bot, top, Form.Proper, Form.AllProper]
    | .sym s true => simp [leafForm, Form.Proper]
    | .sym s false => simp [leafForm, Form.Proper]
  · unfold plainForm DnfsTrue
    simp only [conjOf_holds, disjOf_holds, List.mem_map, forall_exists_index, and_imp, forall_apply_eq_imp_iff₂,
      exists_exists_and_eq_and, leafForm_holds]

/-- The expression `(a or (not b)) and (b or (c and d))` with `b` assumed: the second part is true, the negative literal false. -/
example : let A : Finset Str := {"(b )".toList}
    compileDnf A [[["(a )".toList], ["(not (b ))".toList]], [["(b )".toList], ["(c )".toList, "(d )".toList]]] =
      [[[.sym "(a )".toList true], [.const false]], [[.const true], [.sym "(c )".toList true, .sym "(d )".toList true]]] := by
  decide +kernel

/-- C138: the assumption of a negative literal does not remove its atom. -/
theorem C138_negative_assumption : compileLit {"(not (a ))".toList} "(a )".toList = .sym "(a )".toList true := by decide +kernel

/-- C138: a predicate whose name begins with `not` is taken for a negative literal. -/
theorem C138_not_prefix : compileLit ∅ "(nothing ?x)".toList = .sym "ing ?x".toList false := by decide +kernel

/-- The text of a disjunction with a conjunction and a negative literal. -/
example : transform (.disj [.neg (.atom "(a )".toList), .conj [.atom "(b )".toList, .atom "(c )".toList]]) =
    "(or (not (a )) (and (b ) (c )))".toList := by decide +kernel

end Dnf
end Props
