import Verif.Model.FaultGenerator
import Verif.Model.FaultRepair
import Mathlib.Algebra.Order.Field.Rat
import Mathlib.Tactic.Linarith

/-!
C113: the domains of the fault generator.
-/
namespace Props
namespace FaultGen

open Model Model.FaultGen Spec.Faulty

section
variable {K : Type} [Field K]

/-- `l'` is `l` with one element `t` replaced by `t'`. -/
def ReplacedOne {α : Type} (l : List α) (t t' : α) (l' : List α) : Prop :=
  ∃ pre post, l = pre ++ t :: post ∧ l' = pre ++ t' :: post

/-- `l'` is `l` without one of its elements. -/
def RemovedOne {α : Type} (l l' : List α) : Prop := ∃ pre t post, l = pre ++ t :: post ∧ l' = pre ++ post

/-- The condition `t'` is `t` with the comparison turned round: the sides are the same, a lower bound
becomes an upper bound and conversely (both never strict). An equality stays an equality. -/
def Turned (t t' : ETree K) : Prop :=
  (∀ op l r, t = .node op l r → op ∈ [">=", ">"] → t' = .node "<=" l r) ∧
  (∀ op l r, t = .node op l r → op ∈ ["<=", "<"] → t' = .node ">=" l r) ∧
  ((∀ op l r, t = .node op l r → op ∉ [">=", ">", "<=", "<"]) → t' = t)

/-- The tree `t'` differs from `t` at the rightmost leaf only, by the amount `k`: a float has grown by
`k`, anything else is now increased by `k`, or decreased if `dec`. -/
inductive Shifted (dec : Bool) (k : K) : ETree K → ETree K → Prop
  | float (v : K) : Shifted dec k (.lit true v) (.lit true (v + k))
  | whole (v : K) : Shifted dec k (.lit false v) (.node (if dec then "-" else "+") (.lit false v) (.lit false k))
  | fn (f : String) : Shifted dec k (.fn f) (.node (if dec then "-" else "+") (.fn f) (.lit false k))
  | node (op : String) (l : ETree K) {r r' : ETree K} : Shifted dec k r r' → Shifted dec k (.node op l r) (.node op l r')

/-- The action `a'` is `a` with one fault of the kind `d`. -/
def OneFault (k : K) : Defect → Act K → Act K → Prop
  | .sign, a, a' => ∃ t t' ns, Turned t t' ∧ ReplacedOne a.nums t t' ns ∧ a' = { a with nums := ns }
  | .value, a, a' => ∃ dec t t' ns, (dec = true ↔ ∃ l r, t = .node ">=" l r) ∧ Shifted dec k t t' ∧ ReplacedOne a.nums t t' ns ∧ a' = { a with nums := ns }
  | .effect, a, a' => ∃ t t' es, Shifted false k t t' ∧ ReplacedOne a.effs t t' es ∧ a' = { a with effs := es }
  | .removedPredicate, a, a' => ∃ ps, RemovedOne a.pos ps ∧ a' = { a with pos := ps }
  | .removedNumeric, a, a' => ∃ ns, RemovedOne a.nums ns ∧ a' = { a with nums := ns }

/-- The kind of fault that is made: the one asked for, otherwise the first possible one of a turned
numeric condition, a changed numeric effect, a missing predicate. -/
def kindOf (d : Option Defect) (a : Act K) : Defect :=
  match d with
  | some d => d
  | none => if a.nums ≠ [] then .sign else if a.effs ≠ [] then .effect else .removedPredicate

/-- What a fault of this kind chooses from is not empty. -/
def Possible : Defect → Act K → Prop
  | .sign, a => a.nums ≠ []
  | .value, a => a.nums ≠ []
  | .effect, a => a.effs ≠ []
  | .removedPredicate, a => a.pos ≠ []
  | .removedNumeric, a => a.nums ≠ []

/-- The parsed conditions and effects are comparisons and assignments, not bare values. -/
def Parsed (a : Act K) : Prop := (∀ t ∈ a.nums, ∃ op l r, t = .node op l r) ∧ ∀ t ∈ a.effs, ∃ op l r, t = .node op l r

/-- The action of the result shows the action `a`. -/
def Shows (render : ETree K → String) (a : Act K) (p : Printed) : Prop :=
  p.pos = a.pos ∧ p.ineq = a.ineq ∧ p.nums = a.nums.map render ∧ p.adds = a.adds ∧ p.dels = a.dels ∧
    p.effs = a.effs.map render

/-! ### Auxiliary facts -/

theorem choose_ok {α : Type} {i : Nat} {l : List α} {p : Nat × α} (h : choose i l = .ok p) :
    ∃ pre post, l = pre ++ p.2 :: post ∧ p.1 = pre.length := by
  unfold choose at h
  split at h
  · rename_i t ht
    cases h
    obtain ⟨hlt, hget⟩ := List.getElem?_eq_some_iff.mp ht
    refine ⟨l.take (i % l.length), l.drop (i % l.length + 1), ?_, ?_⟩
    · subst hget
      rw [← List.drop_eq_getElem_cons hlt, List.take_append_drop]
    · simp [List.length_take]; omega
  · cases h

theorem choose_some {α : Type} (i : Nat) {l : List α} (h : l ≠ []) : ∃ p, choose i l = .ok p := by
  unfold choose
  have hl : i % l.length < l.length := Nat.mod_lt _ (List.length_pos_iff.mpr h)
  rw [List.getElem?_eq_getElem hl]
  exact ⟨_, rfl⟩

theorem choose_nil {α : Type} (i : Nat) : choose i ([] : List α) = .error .indexError := rfl

theorem set_mid {α : Type} (pre post : List α) (t t' : α) :
    (pre ++ t :: post).set pre.length t' = pre ++ t' :: post := by
  simp

theorem erase_mid {α : Type} (pre post : List α) (t : α) :
    (pre ++ t :: post).eraseIdx pre.length = pre ++ post := by
  simp [List.eraseIdx_append_of_length_le]

theorem turned_flip [DecidableEq K] (t : ETree K) : Turned t (Model.FaultGen.flip t) := by
  refine ⟨?_, ?_, ?_⟩
  · rintro op l r rfl h
    simp only [List.mem_cons, List.not_mem_nil, or_false] at h
    simp [Model.FaultGen.flip, h]
  · rintro op l r rfl h
    simp only [List.mem_cons, List.not_mem_nil, or_false] at h
    rcases h with rfl | rfl <;> simp [Model.FaultGen.flip]
  · intro h
    cases t with
    | node op l r =>
      have := h op l r rfl
      simp only [List.mem_cons, List.not_mem_nil, or_false, not_or] at this
      simp [Model.FaultGen.flip, this]
    | _ => rfl

theorem shifted_leaf (dec : Bool) (k : K) : ∀ t : ETree K, Shifted dec k t (alterLeaf dec k t)
  | .node op l r => .node op l (shifted_leaf dec k r)
  | .lit true v => .float v
  | .lit false v => .whole v
  | .fn f => .fn f

theorem shifted_expr {dec : Bool} {k : K} {t t' : ETree K} (h : alterExpr dec k t = .ok t') : Shifted dec k t t' := by
  unfold alterExpr at h
  split at h
  · cases h; exact .node _ _ (shifted_leaf dec k _)
  · cases h; exact .float _
  · cases h

theorem rootOp_iff (t : ETree K) : decide (rootOp t = some ">=") = true ↔ ∃ l r, t = .node ">=" l r := by
  cases t <;> simp [rootOp]

variable [DecidableEq K]

theorem alter_fault {d : Option Defect} {R : Rand} {a a' : Act K} (h : alter d R a = .ok a') :
    OneFault (R.amount : K) (kindOf d a) a a' := by
  have hsign : ∀ {a'}, alterSign R a = .ok a' → OneFault (R.amount : K) .sign a a' := by
    intro a' h
    unfold alterSign at h
    simp only [Bind.bind, Except.bind] at h
    split at h
    · cases h
    · rename_i p hp
      obtain ⟨pre, post, h1, h2⟩ := choose_ok hp
      cases h
      refine ⟨p.2, _, _, turned_flip p.2, ⟨pre, post, h1, rfl⟩, ?_⟩
      rw [h2]; conv_lhs => rw [h1]
      simp
  have heff : ∀ {a'}, alterEffect R a = .ok a' → OneFault (R.amount : K) .effect a a' := by
    intro a' h
    unfold alterEffect at h
    simp only [Bind.bind, Except.bind] at h
    split at h
    · cases h
    · rename_i p hp
      obtain ⟨pre, post, h1, h2⟩ := choose_ok hp
      split at h
      · cases h
      · rename_i t ht
        cases h
        refine ⟨p.2, t, _, shifted_expr ht, ⟨pre, post, h1, rfl⟩, ?_⟩
        rw [h2, h1]; simp
  have hpred : ∀ {a'}, removePredicate R a = .ok a' → OneFault (R.amount : K) .removedPredicate a a' := by
    intro a' h
    unfold removePredicate at h
    simp only [Bind.bind, Except.bind] at h
    split at h
    · cases h
    · rename_i p hp
      obtain ⟨pre, post, h1, h2⟩ := choose_ok hp
      cases h
      refine ⟨_, ⟨pre, p.2, post, h1, rfl⟩, ?_⟩
      rw [h2, h1, erase_mid]
  unfold alter at h
  split at h
  · exact hsign h
  · unfold removeNumeric at h
    simp only [Bind.bind, Except.bind] at h
    split at h
    · cases h
    · rename_i p hp
      obtain ⟨pre, post, h1, h2⟩ := choose_ok hp
      cases h
      refine ⟨_, ⟨pre, p.2, post, h1, rfl⟩, ?_⟩
      rw [h2, h1, erase_mid]
  · unfold alterValue at h
    simp only [Bind.bind, Except.bind] at h
    split at h
    · cases h
    · rename_i p hp
      obtain ⟨pre, post, h1, h2⟩ := choose_ok hp
      split at h
      · cases h
      · rename_i t ht
        cases h
        refine ⟨_, p.2, t, _, rootOp_iff p.2, shifted_expr ht, ⟨pre, post, h1, rfl⟩, ?_⟩
        rw [h2, h1]; simp
  · exact heff h
  · exact hpred h
  · simp only [kindOf]
    simp only [List.length_pos_iff] at h
    by_cases h1 : a.nums ≠ []
    · rw [if_pos h1] at h ⊢; exact hsign h
    · rw [if_neg h1] at h ⊢
      by_cases h2 : a.effs ≠ []
      · rw [if_pos h2] at h ⊢; exact heff h
      · rw [if_neg h2] at h ⊢; exact hpred h

theorem alter_ok {d : Option Defect} (R : Rand) {a : Act K} (hp : Parsed a) :
    (∃ a', alter d R a = .ok a') ↔ Possible (kindOf d a) a := by
  have hsign : (∃ a', alterSign R a = .ok a') ↔ a.nums ≠ [] := by
    unfold alterSign
    simp only [Bind.bind, Except.bind]
    by_cases h : a.nums = []
    · simp [h, choose_nil]
    · obtain ⟨p, hc⟩ := choose_some R.item h
      simp [hc, h]
  have hexpr : ∀ (dec : Bool) (k : K) {t : ETree K}, (∃ op l r, t = .node op l r) → ∃ t', alterExpr dec k t = .ok t' := by
    rintro dec k t ⟨op, l, r, rfl⟩
    exact ⟨_, rfl⟩
  have heff : (∃ a', alterEffect R a = .ok a') ↔ a.effs ≠ [] := by
    unfold alterEffect
    simp only [Bind.bind, Except.bind]
    by_cases h : a.effs = []
    · simp [h, choose_nil]
    · obtain ⟨p, hc⟩ := choose_some R.item h
      obtain ⟨pre, post, h1, -⟩ := choose_ok hc
      obtain ⟨t', ht⟩ := hexpr false (R.amount : K) (hp.2 p.2 (by rw [h1]; simp))
      simp [hc, h, ht]
  have hpred : (∃ a', removePredicate R a = .ok a') ↔ a.pos ≠ [] := by
    unfold removePredicate
    simp only [Bind.bind, Except.bind]
    by_cases h : a.pos = []
    · simp [h, choose_nil]
    · obtain ⟨p, hc⟩ := choose_some R.item h
      simp [hc, h]
  unfold alter
  match d with
  | some .sign => exact hsign
  | some .effect => exact heff
  | some .removedPredicate => exact hpred
  | some .removedNumeric =>
    dsimp only [kindOf, Possible]
    unfold removeNumeric
    simp only [Bind.bind, Except.bind]
    by_cases h : a.nums = []
    · simp [h, choose_nil]
    · obtain ⟨p, hc⟩ := choose_some R.item h
      simp [hc, h]
  | some .value =>
    dsimp only [kindOf, Possible]
    unfold alterValue
    simp only [Bind.bind, Except.bind]
    by_cases h : a.nums = []
    · simp [h, choose_nil]
    · obtain ⟨p, hc⟩ := choose_some R.item h
      obtain ⟨pre, post, h1, -⟩ := choose_ok hc
      obtain ⟨t', ht⟩ := hexpr (decide (rootOp p.2 = some ">=")) (R.amount : K) (hp.1 p.2 (by rw [h1]; simp))
      simp [hc, h, ht]
  | none =>
    simp only [kindOf, List.length_pos_iff]
    by_cases h1 : a.nums ≠ []
    · simp only [if_pos h1]; exact hsign
    · simp only [if_neg h1]
      by_cases h2 : a.effs ≠ []
      · simp only [if_pos h2]; exact heff
      · simp only [if_neg h2]; exact hpred

theorem lookup_mem {n : String} {a : Act K} : ∀ {dom : List (String × Act K)}, dom.lookup n = some a → (n, a) ∈ dom
  | [], h => by simp at h
  | (m, b) :: rest, h => by
    by_cases hm : n = m
    · subst hm; simp at h; subst h; simp
    · rw [List.lookup_cons, (by simp [hm] : (n == m) = false)] at h
      exact List.mem_cons_of_mem _ (lookup_mem h)

/-! ### C113 -/

/-- C113. When a faulty domain is generated, exactly one action of the model domain got exactly one
fault of the kind asked for (without a request: a turned numeric condition if there is one, else a
changed numeric effect, else a missing predicate), it is the action asked for, if one was named, and
the result shows the other actions, and everything else of this one, unchanged. -/
theorem C113_one_fault (render : ETree K → String) (d : Option Defect) (name : Option String) (R : Rand)
    (dom : List (String × Act K)) (out : List (String × Printed))
    (h : generate render d name R dom = .ok out) :
    ∃ n a a', (n, a) ∈ dom ∧ (∀ m, name = some m → n = m) ∧ OneFault (R.amount : K) (kindOf d a) a a' ∧
      List.Forall₂ (fun q o => o.1 = q.1 ∧ (q.1 = n → Shows render a' o.2) ∧ (q.1 ≠ n → Shows render q.2 o.2)) dom out := by
  unfold generate at h
  simp only [Bind.bind, Except.bind] at h
  split at h
  · cases h
  · rename_i p hp
    split at h
    · cases h
    · rename_i a' ha'
      cases h
      refine ⟨p.1, p.2, a', ?_, ?_, alter_fault ha', ?_⟩
      · unfold select at hp
        split at hp
        · simp only [Bind.bind, Except.bind] at hp
          split at hp
          · cases hp
          · rename_i q hq
            cases hp
            obtain ⟨pre, post, h1, -⟩ := choose_ok hq
            rw [h1]; simp
        · split at hp
          · rename_i hl
            cases hp
            exact lookup_mem hl
          · cases hp
      · rintro m rfl
        unfold select at hp
        dsimp only at hp
        split at hp
        · cases hp; rfl
        · cases hp
      · rw [List.map_map, List.forall₂_map_right_iff]
        refine List.forall₂_same.mpr fun q _ => ?_
        by_cases hq : q.1 = p.1
        · simp [hq, printAct, Shows]
        · simp [hq, printAct, Shows]

/-- C113. On a parsed domain the generator returns exactly when there is an action to alter (the named
one) that has something of the kind to be altered, whatever is drawn at random. -/
theorem C113_returns (render : ETree K → String) (d : Option Defect) (name : Option String) (R : Rand)
    (dom : List (String × Act K)) (hnames : (dom.map Prod.fst).Nodup) (hp : ∀ q ∈ dom, Parsed q.2) :
    (∀ n, name = some n →
      ((∃ out, generate render d name R dom = .ok out) ↔ ∃ a, (n, a) ∈ dom ∧ Possible (kindOf d a) a)) ∧
    (name = none → dom ≠ [] → (∀ q ∈ dom, Possible (kindOf d q.2) q.2) → ∃ out, generate render d name R dom = .ok out) := by
  constructor
  · rintro n rfl
    unfold generate
    simp only [Bind.bind, Except.bind]
    unfold select
    dsimp only
    cases hl : dom.lookup n with
    | none =>
      dsimp only
      simp only [reduceCtorEq, exists_false, false_iff, not_exists, not_and]
      intro a ha
      have := List.lookup_eq_none_iff.mp hl (n, a) ha
      simp at this
    | some a =>
      dsimp only
      have hm := lookup_mem hl
      have key := alter_ok (d := d) R (hp _ hm)
      have huniq : ∀ b, (n, b) ∈ dom → b = a := by
        intro b hb
        have := List.inj_on_of_nodup_map hnames hb hm rfl
        exact (Prod.mk.inj this).2
      constructor
      · rintro ⟨out, ho⟩
        refine ⟨a, hm, key.mp ?_⟩
        split at ho
        · cases ho
        · exact ⟨_, by assumption⟩
      · rintro ⟨b, hb, hpos⟩
        rw [huniq b hb] at hpos
        obtain ⟨a', ha'⟩ := key.mpr hpos
        rw [ha']
        exact ⟨_, rfl⟩
  · rintro rfl hd hall
    obtain ⟨p, hc⟩ := choose_some R.action hd
    obtain ⟨pre, post, h1, -⟩ := choose_ok hc
    have hm : p.2 ∈ dom := by rw [h1]; simp
    obtain ⟨a', ha'⟩ := (alter_ok (d := d) R (hp _ hm)).mpr (hall _ hm)
    unfold generate select
    simp only [Bind.bind, Except.bind, hc, ha']
    exact ⟨_, rfl⟩

end

/-! ### What the faults mean -/

section
variable {K : Type} [Field K] [LinearOrder K]

/-- C113. Turning a numeric condition round: in every state the old or the new condition holds, both
hold only where the two sides are equal, and for a strict comparison never both. A condition that is
an equality is not changed at all. -/
theorem C113_sign (t t' : ETree K) (h : Turned t t') (op : String) (l r : ETree K) (ht : t = .node op l r)
    (hop : op ∈ comparisons) (x : String → K) :
    (op ≠ "=" → (t.holds x ∨ t'.holds x) ∧ (t.holds x → t'.holds x → l.value x = r.value x) ∧
      (op ∈ ["<", ">"] → ¬ (t.holds x ∧ t'.holds x))) ∧ (op = "=" → t' = t) := by
  subst ht
  obtain ⟨h1, h2, h3⟩ := h
  have hge := h1 op l r rfl
  have hle := h2 op l r rfl
  simp only [comparisons, List.mem_cons, List.not_mem_nil, or_false] at hop hge hle
  rcases hop with rfl | rfl | rfl | rfl | rfl
  · have := hge (by simp); subst this
    simp only [ETree.holds]
    simp only [reduceIte, (by decide : ("<=" : String) ≠ ">="), (by decide : ("<=" : String) ≠ ">")]
    refine ⟨fun _ => ⟨(le_total _ _), fun a b => le_antisymm b a, by simp⟩, by simp⟩
  · have := hge (by simp); subst this
    simp only [ETree.holds]
    simp only [reduceIte, (by decide : ("<=" : String) ≠ ">="), (by decide : ("<=" : String) ≠ ">"), (by decide : (">" : String) ≠ ">=")]
    refine ⟨fun _ => ⟨(lt_or_ge _ _), fun a b => absurd a (not_lt.mpr b), fun _ h => absurd h.1 (not_lt.mpr h.2)⟩, by simp⟩
  · have := hle (by simp); subst this
    simp only [ETree.holds]
    simp only [reduceIte, (by decide : ("<=" : String) ≠ ">="), (by decide : ("<=" : String) ≠ ">")]
    refine ⟨fun _ => ⟨(le_total _ _), fun a b => le_antisymm a b, by simp⟩, by simp⟩
  · have := hle (by simp); subst this
    simp only [ETree.holds]
    simp only [reduceIte, (by decide : ("<" : String) ≠ ">="), (by decide : ("<" : String) ≠ ">"), (by decide : ("<" : String) ≠ "<=")]
    refine ⟨fun _ => ⟨(lt_or_ge _ _), fun a b => absurd a (not_lt.mpr b), fun _ h => absurd h.1 (not_lt.mpr h.2)⟩, by simp⟩
  · refine ⟨fun h => absurd rfl h, fun _ => h3 ?_⟩
    intro op l' r' he
    cases he
    decide

open Classical in
omit [LinearOrder K] in
theorem shifted_value {dec : Bool} {k : K} {t t' : ETree K} (h : Shifted dec k t t') (hs : t.along ["+"]) (x : String → K) :
    t'.value x = if dec = true ∧ ∀ v, t.last ≠ .lit true v then t.value x - k else t.value x + k := by
  induction h with
  | float v => simp [ETree.value, ETree.last]
  | whole v => cases dec <;> simp [ETree.value, ETree.last]
  | fn f => cases dec <;> simp [ETree.value, ETree.last]
  | node op l hr ih =>
    obtain ⟨h1, h2⟩ := hs
    simp only [List.mem_singleton] at h1
    subst h1
    have := ih h2
    simp only [ETree.value, ETree.last, if_true]
    rw [this]
    split_ifs <;> ring

variable [IsStrictOrderedRing K]

omit [LinearOrder K] [IsStrictOrderedRing K] in
theorem shifted_unit {dec : Bool} {k : K} {t t' : ETree K} (h : Shifted dec k t t') (hs : t.along ["+", "-"]) (x : String → K) :
    t'.value x = t.value x + k ∨ t'.value x = t.value x - k := by
  induction h with
  | float v => simp [ETree.value]
  | whole v => cases dec <;> simp [ETree.value]
  | fn f => cases dec <;> simp [ETree.value]
  | node op l hr ih =>
    obtain ⟨h1, h2⟩ := hs
    simp only [List.mem_cons, List.not_mem_nil, or_false] at h1
    have := ih h2
    rcases h1 with rfl | rfl
    · simp only [ETree.value, if_true]
      rcases this with h | h <;> rw [h]
      · left; ring
      · right; ring
    · simp only [ETree.value, if_true, (by decide : ("-" : String) ≠ "+"), if_false]
      rcases this with h | h <;> rw [h]
      · right; ring
      · left; ring

/-- C113. Changing the value in a comparison whose right side is a sum ending in a number or a
function: the right side moves by exactly `k`. Upper bounds get larger, and a lower bound `>=` whose
last summand is a function gets smaller, so that the faulty condition accepts everything the original
one accepts; but a lower bound `>=` whose last summand is a number, and every `>`, gets larger: the
faulty condition accepts nothing new, and the "fault" does not make the domain unsafe. -/
theorem C113_value (k : K) (hk : 0 < k) (op : String) (l r : ETree K) (t' : ETree K) (dec : Bool)
    (hdec : dec = true ↔ op = ">=") (h : Shifted dec k (.node op l r) t') (hs : r.along ["+"]) (x : String → K) :
    (op ∈ ["<=", "<"] → (ETree.node op l r).holds x → t'.holds x) ∧
    (op = ">=" → (∀ v, r.last ≠ .lit true v) → (ETree.node op l r).holds x → t'.holds x) ∧
    (op = ">=" → (∃ v, r.last = .lit true v) → t'.holds x → (ETree.node op l r).holds x) ∧
    (op = ">" → t'.holds x → (ETree.node op l r).holds x) := by
  cases h with
  | node _ _ hr =>
    rename_i r'
    have hv := shifted_value hr hs x
    refine ⟨?_, ?_, ?_, ?_⟩
    · intro hop
      have hd : ¬ dec = true := by
        rw [hdec]; rintro rfl; simp at hop
      rw [if_neg (fun h => hd h.1)] at hv
      simp only [List.mem_cons, List.not_mem_nil, or_false] at hop
      rcases hop with rfl | rfl <;> simp only [ETree.holds, reduceIte, (by decide : ("<=" : String) ≠ ">="), (by decide : ("<=" : String) ≠ ">"), (by decide : ("<" : String) ≠ ">="), (by decide : ("<" : String) ≠ ">"), (by decide : ("<" : String) ≠ "<=")] <;> intro h <;> rw [hv] <;> linarith
    · rintro rfl hlast
      rw [if_pos ⟨hdec.mpr rfl, hlast⟩] at hv
      simp only [ETree.holds, reduceIte]
      intro h; rw [hv]; linarith
    · rintro rfl ⟨v, hlast⟩
      rw [if_neg (fun h => h.2 v hlast)] at hv
      simp only [ETree.holds, reduceIte]
      intro h; rw [hv] at h; linarith
    · rintro rfl
      have hd : ¬ dec = true := by rw [hdec]; decide
      rw [if_neg (fun h => hd h.1)] at hv
      simp only [ETree.holds, reduceIte, (by decide : (">" : String) ≠ ">=")]
      intro h; rw [hv] at h; linarith

omit [IsStrictOrderedRing K] in
/-- C113. An action from which a condition is removed is applicable wherever it was. -/
theorem C113_removed (k : K) (a a' : Act K) (facts : Finset String) (x : String → K)
    (h : OneFault k .removedPredicate a a' ∨ OneFault k .removedNumeric a a') (ha : a.applicable facts x) :
    a'.applicable facts x := by
  rcases h with ⟨ps, ⟨pre, t, post, h1, rfl⟩, rfl⟩ | ⟨ns, ⟨pre, t, post, h1, rfl⟩, rfl⟩
  · refine ⟨fun p hp => ha.1 p ?_, ha.2⟩
    rw [h1]; dsimp only at hp; simp only [List.mem_append, List.mem_cons] at hp ⊢; tauto
  · refine ⟨ha.1, ha.2.1, fun p hp => ha.2.2 p ?_⟩
    rw [h1]; dsimp only at hp; simp only [List.mem_append, List.mem_cons] at hp ⊢; tauto

/-- C113. Changing an effect that assigns, adds or subtracts a sum or difference: in every state the
new value of the fluent is wrong by exactly `k`. -/
theorem C113_effect (k : K) (op : String) (l r : ETree K) (t' : ETree K) (hop : op ∈ ["assign", "increase", "decrease"])
    (h : Shifted false k (.node op l r) t') (hs : r.along ["+", "-"]) (hk : 0 ≤ k) (x : String → K) :
    |(ETree.node op l r).newValue x - t'.newValue x| = k := by
  cases h with
  | node _ _ hr =>
    rename_i r'
    have hv := shifted_unit hr hs x
    simp only [List.mem_cons, List.not_mem_nil, or_false] at hop
    have key : ∀ d : K, d = k ∨ d = -k → |d| = k := by
      rintro d (rfl | rfl)
      · exact abs_of_nonneg hk
      · rw [abs_neg]; exact abs_of_nonneg hk
    rcases hop with rfl | rfl | rfl <;>
      simp only [ETree.newValue, reduceIte, (by decide : ("increase" : String) ≠ "assign"), (by decide : ("decrease" : String) ≠ "assign"), (by decide : ("decrease" : String) ≠ "increase")] <;>
      apply key <;> rcases hv with h | h <;> rw [h]
    · right; ring
    · left; ring
    · right; ring
    · left; ring
    · left; ring
    · right; ring

omit [IsStrictOrderedRing K] in
theorem fluents_differ (faulty : Fault.FState K) (f : String) (v w : K) : ∀ (l : List (String × K)),
    (∀ p ∈ l, ∃ u, faulty.fluents.lookup p.1 = some u) → (f, v) ∈ l → faulty.fluents.lookup f = some w → 1 ≤ |v - w| →
    Fault.fluentsSame faulty l = .ok false
  | [], _, h, _, _ => by simp at h
  | p :: rest, hall, h, hw, hd => by
    unfold Fault.fluentsSame
    obtain ⟨u, hu⟩ := hall p (by simp)
    rw [hu]
    dsimp only
    by_cases hb : 1 ≤ |p.2 - u|
    · rw [if_pos hb]
    · rw [if_neg hb]
      refine fluents_differ faulty f v w rest (fun q hq => hall q (by simp [hq])) ?_ hw hd
      rcases List.mem_cons.mp h with h | h
      · subst h
        dsimp only at hu hb
        rw [hu] at hw; cases hw
        exact absurd hd hb
      · exact h

/-- C113. The fault localisation finds such a fault at its first execution: the amounts are drawn from
`2` to `20`, so that after the same action in the same state the comparison of the two next states, in
which the fluent has the value of the original and of the faulty effect, reports a difference. -/
theorem C113_detected (k : K) (hk : 2 ≤ k) (op f : String) (r : ETree K) (t' : ETree K)
    (hop : op ∈ ["assign", "increase", "decrease"]) (h : Shifted false k (.node op (.fn f) r) t')
    (hs : r.along ["+", "-"]) (x : String → K) (valid faulty : Fault.FState K)
    (hv : (f, (ETree.node op (.fn f) r).newValue x) ∈ valid.fluents)
    (hf : faulty.fluents.lookup f = some (t'.newValue x))
    (hall : ∀ p ∈ valid.fluents, ∃ u, faulty.fluents.lookup p.1 = some u) :
    Fault.validate valid faulty = .ok false := by
  unfold Fault.validate
  split_ifs with hs'
  · refine fluents_differ faulty f _ _ _ hall hv hf ?_
    rw [C113_effect k op _ r t' hop h hs (by linarith) x]
    linarith
  · rfl

end

/-! ### Cases that meet the hypotheses, and cases outside them -/
namespace Case

/-- The action `load` of the numeric depots domain, with an equality and a lower bound added. -/
def load : Act Rat where
  pos := ["(at ?x ?p)", "(lifting ?x ?y)"]
  ineq := []
  nums := [.node "<=" (.node "+" (.fn "(current_load ?z)") (.fn "(weight ?y)")) (.fn "(load_limit ?z)"),
    .node "=" (.fn "(mode)") (.lit true 1), .node ">=" (.fn "(fuel)") (.lit true 10)]
  adds := ["(in ?y ?z)"]
  dels := ["(lifting ?x ?y)"]
  effs := [.node "increase" (.fn "(current_load ?z)") (.fn "(weight ?y)")]

/-- An action without numeric parts. -/
def lift : Act Rat := ⟨["(clear ?y)"], [], [], ["(lifting ?x ?y)"], [], []⟩

def dom : List (String × Act Rat) := [("load", load), ("lift", lift)]

/-- A printer (only for the examples): the operators and leaves without parentheses and numbers. -/
def render : ETree Rat → String
  | .lit _ _ => "k"
  | .fn f => f
  | .node op l r => op ++ " " ++ render l ++ " " ++ render r

def names (r : Except Err (List (String × Printed))) (n : String) : List String :=
  match r with
  | .ok l => match l.lookup n with
    | some p => p.nums
    | none => []
  | .error _ => []

example : (dom.map Prod.fst).Nodup ∧ (∃ out, generate render none (some "load") ⟨0, 3, 5⟩ dom = .ok out) ∧
    names (generate render none (some "load") ⟨0, 3, 5⟩ dom) "load" =
      [">= + (current_load ?z) (weight ?y) (load_limit ?z)", "= (mode) k", ">= (fuel) k"] :=
  ⟨by decide, ⟨_, rfl⟩, by decide +kernel⟩

example : ∀ q ∈ dom, Parsed q.2 := by
  intro q hq
  simp only [dom, List.mem_cons, List.not_mem_nil, or_false] at hq
  rcases hq with rfl | rfl
  · constructor
    · intro t ht
      simp only [load, List.mem_cons, List.not_mem_nil, or_false] at ht
      rcases ht with rfl | rfl | rfl <;> exact ⟨_, _, _, rfl⟩
    · intro t ht
      simp only [load, List.mem_cons, List.not_mem_nil, or_false] at ht
      subst ht; exact ⟨_, _, _, rfl⟩
  · exact ⟨by simp [lift], by simp [lift]⟩

/-- No fault at all: the chosen condition is an equality, and the generated domain is the original. -/
example : names (generate render (some .sign) (some "load") ⟨0, 1, 5⟩ dom) "load" = load.nums.map render := by
  decide +kernel

/-- `lift` has no numeric condition: the kinds of faults about them raise. -/
example : generate render (some .sign) (some "lift") ⟨0, 1, 5⟩ dom = .error .indexError := by decide +kernel

/-- The value change of `(fuel) >= 10`: the bound becomes 15, states with fuel 12 are no longer accepted. -/
example : alterExpr true (5 : Rat) (.node ">=" (.fn "(fuel)") (.lit true 10)) =
      .ok (.node ">=" (.fn "(fuel)") (.lit true 15)) ∧
    (ETree.node ">=" (.fn "(fuel)") (.lit true 10)).holds (fun _ => (12 : Rat)) ∧
    ¬ (ETree.node ">=" (.fn "(fuel)") (.lit true 15)).holds (fun _ => (12 : Rat)) := by
  refine ⟨by decide +kernel, ?_, ?_⟩ <;> simp [ETree.holds, ETree.value] <;> norm_num

/-- The hypotheses of the theorems about values and effects. -/
example : Shifted false (5 : Rat) (.node "increase" (.fn "(l)") (.fn "(w)"))
      (.node "increase" (.fn "(l)") (.node "+" (.fn "(w)") (.lit false 5))) ∧
    (ETree.fn "(w)" : ETree Rat).along ["+", "-"] ∧
    Shifted true (5 : Rat) (.node ">=" (.fn "(l)") (.fn "(w)"))
      (.node ">=" (.fn "(l)") (.node "-" (.fn "(w)") (.lit false 5))) :=
  ⟨.node _ _ (.fn _), trivial, .node _ _ (.fn _)⟩

/-- Outside of sums the fault can be invisible: below a product with `0` nothing changes. -/
example (x : String → Rat) :
    (ETree.node "increase" (.fn "(l)") (.node "*" (.lit true 0) (.fn "(w)")) : ETree Rat).newValue x =
    (ETree.node "increase" (.fn "(l)") (.node "*" (.lit true 0) (.node "+" (.fn "(w)") (.lit false 5))) : ETree Rat).newValue x := by
  simp [ETree.newValue, ETree.value]

/-- The localisation on such a pair of states. -/
example : Fault.validate (⟨[], [("(l)", 3)]⟩ : Fault.FState Rat) ⟨[], [("(l)", 8)]⟩ = .ok false := by decide +kernel

end Case
end FaultGen
end Props
