import Verif.Props.NumSam
import Verif.Props.World

/-!
A concrete case for C61, C62 and C63: moving costs one unit of fuel and needs at least one.
-/
namespace NumWorld
open Model Spec Props World

def fuelDecl : PredDecl := ⟨"fuel", [("?o", tObj)]⟩
def fuelAt (x : String) : Atom := ⟨"fuel", [x]⟩

def txt (f : Atom) : String :=
  if f.args = ["?o"] then "(fuel ?o)" else if f.args = ["?x"] then "(fuel ?x)" else "(fuel ?y)"

/-- A regression for the convex hull that finds only columns that are zero, and no hull. -/
def lib : NumLib ℚ (List String) where
  qhull _ _ := none
  fit feats c rows := if ∀ r ∈ rows, r c = 0 then some (feats.map fun _ => 0, 0) else none
  norm _ := 1

noncomputable def cfg : NumCfg ℚ where
  lib := lib
  reg := guessLib [([["(fuel ?o)"]], [1], -1)]
  digits := 4
  margin := 0
  plain := true
  allowUnsafe := false
  degree := 0
  relevant := none
  txt := txt
  fns := [fuelDecl]

def n1 : NumComponent ℚ := ⟨c1, [(fuelAt "b", 5), (fuelAt "car", 2)], [(fuelAt "b", 4), (fuelAt "car", 2)]⟩
def n2 : NumComponent ℚ := ⟨c2, [(fuelAt "b", 3)], [(fuelAt "b", 2)]⟩
def n3 : NumComponent ℚ := ⟨c3, [(fuelAt "b", 0)], [(fuelAt "b", 0)]⟩
/-- A repeated point. -/
def n4 : NumComponent ℚ := ⟨c2, [(fuelAt "b", 3)], [(fuelAt "b", 2)]⟩

def obs : List (List (NumComponent ℚ)) := [[n1, n3], [n2, n4]]

/-- The true numeric part of `move`. -/
def truthN : NumSchema ℚ where
  pre v := 1 ≤ v ["(fuel ?o)"]
  eff _ := ⟨[["(fuel ?o)"]], fun _ => 1, -1⟩

theorem run : ∃ N' info, (NumLearner.init D).learn cfg obs = .ok (N', info) ∧ N'.base.dom.names = ["move"] ∧
    (N'.num "move").pre = [⟨.ge, .var "(fuel ?o)", .num 3⟩, ⟨.le, .var "(fuel ?o)", .num 5⟩] ∧
    (N'.num "move").eff = [⟨.decrease, "(fuel ?o)", .num 1⟩] ∧ info = [("move", .ok)] := by
  have h : (match (NumLearner.init D).learn cfg obs with
    | .ok (N', info) => decide (N'.base.dom.names = ["move"] ∧
      (N'.num "move").pre = [⟨.ge, .var "(fuel ?o)", .num 3⟩, ⟨.le, .var "(fuel ?o)", .num 5⟩] ∧
      (N'.num "move").eff = [⟨.decrease, "(fuel ?o)", .num 1⟩] ∧ info = [("move", .ok)])
    | .error _ => false) = true := by decide +kernel
  revert h
  cases (NumLearner.init D).learn cfg obs with
  | error e => intro h; exact absurd h (by simp)
  | ok r => intro h; exact ⟨r.1, r.2, rfl, of_decide_eq_true h⟩

theorem good : GoodData D truth (obs.map fun o => o.map NumComponent.comp) where
  explained := by
    intro c hc hs
    simp only [obs, n1, n2, n3, n4, List.map_cons, List.map_nil, List.flatten_cons, List.flatten_nil, List.cons_append, List.nil_append, List.append_nil,
      List.mem_cons, List.not_mem_nil, or_false] at hc
    rcases hc with rfl | rfl | rfl | rfl
    · exact ⟨rfl, by decide, by decide⟩
    · simp [c3] at hs
    · exact ⟨rfl, by decide, by decide⟩
    · exact ⟨rfl, by decide, by decide⟩
  noConst := by intro c _ _ _ o _; simp [D, Sig.names]

theorem scope_iff {f : Atom} : InScope cfg.fns D.consts (D.act "move").sig f ↔ f = fuelAt "?o" := by
  constructor
  · rintro ⟨_, d, hd, h1, h2⟩
    have hd' : d = fuelDecl := by simpa [cfg] using hd
    subst hd'
    obtain ⟨n, as⟩ := f
    dsimp only at h1 h2
    subst h1
    obtain ⟨x, hx, rfl⟩ : ∃ x, (∃ t, (x, t) ∈ moveSig ∧ t.isSub tObj = true) ∧ as = [x] := by
      cases h2 with
      | cons h t => cases t; exact ⟨_, by simpa [D, ActModel.fresh] using h, rfl⟩
    obtain ⟨t, ht, hs⟩ := hx
    simp only [moveSig, List.mem_cons, Prod.mk.injEq, List.not_mem_nil, or_false] at ht
    rcases ht with ⟨rfl, rfl⟩ | ⟨rfl, rfl⟩ | ⟨rfl, rfl⟩
    · rfl
    · exact absurd hs (by decide)
    · exact absurd hs (by decide)
  · rintro rfl
    exact ⟨by simp [fuelAt], fuelDecl, by simp [cfg], rfl, .cons ⟨tObj, by decide, by decide⟩ .nil⟩

theorem textOK : TextOK cfg.txt cfg.fns D.consts (D.act "move").sig where
  inj := by
    have key : ∀ f, Liftable cfg.fns D.consts (D.act "move").sig f → f = fuelAt "?o" ∨ f = fuelAt "?x" ∨ f = fuelAt "?y" := by
      rintro ⟨n, as⟩ ⟨⟨d, hd, h1, h2⟩, h3⟩
      have hd' : d = fuelDecl := by simpa [cfg] using hd
      subst hd'
      dsimp only at h1 h2 h3
      subst h1
      match as, h2, h3 with
      | [x], _, h3 =>
        have := h3 x (by simp)
        have : x ∈ ["?o", "?x", "?y"] := this
        simp only [List.mem_cons, List.not_mem_nil, or_false] at this
        rcases this with rfl | rfl | rfl
        · exact .inl rfl
        · exact .inr (.inl rfl)
        · exact .inr (.inr rfl)
    intro f g hf hg
    rcases key f hf with rfl | rfl | rfl <;> rcases key g hg with rfl | rfl | rfl <;> decide
  notDummy := by
    intro f hf
    rw [scope_iff.mp hf]
    decide

theorem explained : NumGood cfg D "move" truthN obs := by
  intro c hc hs _ _
  have key : ∀ c : NumComponent ℚ, (c.prevN.map Prod.fst).Nodup → (c.nextN.map Prod.fst).Nodup →
      (∀ p ∈ c.prevN, p.1.args.Nodup) → (∀ p ∈ c.nextN, p.1.args.Nodup) →
      ∀ v : ℚ, c.prevN.lookup (groundFn (subst (Sig.names moveSig) c.comp.call.params) (fuelAt "?o")) = some v → 1 ≤ v →
      c.nextN.lookup (groundFn (subst (Sig.names moveSig) c.comp.call.params) (fuelAt "?o")) = some (v - 1) →
      NumExplained cfg.txt cfg.fns D.consts (D.act "move").sig truthN c := by
    intro c h1 h2 h3 h4 v hv h5 hn
    refine ⟨h1, h2, h3, h4, ?_, ?_, ?_⟩
    · intro f hf
      rw [scope_iff.mp hf]
      exact ⟨v, hv⟩
    · intro x hx
      have hx0 := hx (fuelAt "?o") (scope_iff.mpr rfl)
      have hv' : c.prevN.lookup (groundFn (subst (Sig.names (D.act "move").sig) c.comp.call.params) (fuelAt "?o")) = some v := hv
      dsimp only at hx0
      rw [hv', Option.getD_some] at hx0
      have hx1 : x "(fuel ?o)" = v := hx0
      show 1 ≤ monoVal x ["(fuel ?o)"]
      simp [monoVal, hx1, h5]
    · intro x hx f hf
      have hx0 := hx (fuelAt "?o") (scope_iff.mpr rfl)
      have hv' : c.prevN.lookup (groundFn (subst (Sig.names (D.act "move").sig) c.comp.call.params) (fuelAt "?o")) = some v := hv
      dsimp only at hx0
      rw [hv', Option.getD_some] at hx0
      have hx1 : x "(fuel ?o)" = v := hx0
      rw [scope_iff.mp hf]
      refine hn.trans ?_
      simp [truthN, Affine.value, monoVal, hx1]
      ring
  simp only [obs, List.flatten_cons, List.flatten_nil, List.cons_append, List.nil_append, List.append_nil,
      List.mem_cons, List.not_mem_nil, or_false] at hc
  rcases hc with rfl | rfl | rfl | rfl
  · exact key _ (by decide) (by decide) (by decide) (by decide) 5 (by decide +kernel) (by norm_num) (by decide +kernel)
  · simp [n3, c3] at hs
  · exact key _ (by decide) (by decide) (by decide) (by decide) 3 (by decide +kernel) (by norm_num) (by decide +kernel)
  · exact key _ (by decide) (by decide) (by decide) (by decide) 3 (by decide +kernel) (by norm_num) (by decide +kernel)

theorem cols_eq : prevColumns cfg D "move" = [["(fuel ?o)"]] := by decide +kernel
theorem nextCols_eq : nextColumns cfg D "move" = [["(fuel ?o)"]] := by decide +kernel

theorem convex : NumConvex cfg.txt cfg.fns D.consts (D.act "move").sig (usedCols none (prevColumns cfg D "move")) truthN where
  convex := by
    intro pts v hp hv
    rw [cols_eq] at hv
    obtain ⟨w, h1, h2, h3, h4⟩ := hv
    have h5 := h4 ["(fuel ?o)"] (by simp [usedCols])
    show 1 ≤ v ["(fuel ?o)"]
    rw [h5]
    have : ∀ (w : List ℚ) (pts : List (List String → ℚ)), w.length = pts.length → (∀ k ∈ w, 0 ≤ k) → (∀ r ∈ pts, (1 : ℚ) ≤ r ["(fuel ?o)"]) →
        w.sum ≤ (List.zipWith (fun k r => k * r ["(fuel ?o)"]) w pts).sum := by
      intro w
      induction w with
      | nil => intro pts _ _ _; simp
      | cons k w ih =>
        intro pts hl hk hr
        cases pts with
        | nil => simp at hl
        | cons r pts =>
          simp only [List.zipWith_cons_cons, List.sum_cons]
          have h6 := ih pts (by simpa using hl) (fun k hk' => hk k (by simp [hk'])) (fun r hr' => hr r (by simp [hr']))
          have h7 := hr r (by simp)
          have h8 := hk k (by simp)
          nlinarith
    have := this w pts h1 h2 hp
    linarith
  effUsed := by
    intro f _ _ c hc
    rw [cols_eq]
    simpa [truthN, usedCols] using hc
  effFrame := by
    intro f hf hn
    exfalso
    apply hn
    rw [cols_eq, scope_iff.mp hf]
    decide

theorem p4 (n : Int) : Printable 4 (n : ℚ) := printable_int n

theorem rows_eq {r : List String → ℚ} (hr : r ∈ hullRows cfg D "move" obs) :
    (r ["(fuel ?o)"] = 5 ∨ r ["(fuel ?o)"] = 3) ∧ ∀ m, m ≠ ["(fuel ?o)"] → r m = 0 := by
  unfold hullRows at hr
  have hr := dedupBy_mem hr
  obtain ⟨c, hc, rfl⟩ := List.mem_map.mp hr
  refine ⟨?_, ?_⟩
  · have hu : usableN obs.flatten "move" = [n1, n2, n4] := rfl
    rw [hu] at hc
    simp only [List.mem_cons, List.not_mem_nil, or_false] at hc
    rcases hc with rfl | rfl | rfl <;> decide +kernel
  · intro m hm
    unfold prevRow frameRow
    rw [if_neg]
    rw [cols_eq]
    simpa using hm

theorem five_mem : ∃ r ∈ hullRows cfg D "move" obs, r ["(fuel ?o)"] = 5 := by
  have : (hullRows cfg D "move" obs).any (fun r => decide (r ["(fuel ?o)"] = 5)) = true := by decide +kernel
  simpa using this
theorem three_mem : ∃ r ∈ hullRows cfg D "move" obs, r ["(fuel ?o)"] = 3 := by
  have : (hullRows cfg D "move" obs).any (fun r => decide (r ["(fuel ?o)"] = 3)) = true := by decide +kernel
  simpa using this

theorem setup : HullSetup cfg.lib cfg.digits polyExp (prevColumns cfg D "move") (hullRows cfg D "move" obs) where
  qhull := ⟨fun h => by simp [cfg, lib] at h, fun h => by simp [cfg, lib] at h⟩
  fit := by
    intro feats c rows cs b h
    simp only [cfg, lib] at h
    split_ifs at h with h0
    simp only [Option.some.injEq, Prod.mk.injEq] at h
    obtain ⟨rfl, rfl⟩ := h
    refine ⟨by simp, fun r hr => ?_⟩
    rw [h0 r hr]
    have : ∀ l : List (List String), (List.zipWith (fun a f => a * r f) (l.map fun _ => (0 : ℚ)) l).sum = 0 := by
      intro l
      induction l with
      | nil => rfl
      | cons x l ih => rw [List.map_cons, List.zipWith_cons_cons, List.sum_cons, ih]; simp
    rw [this]; simp
  complete := by
    intro feats c a b _ hc hr
    simp only [cfg, lib]
    rw [if_pos]
    · simp
    · by_cases hm : c = ["(fuel ?o)"]
      · exfalso
        subst hm
        have hz : ∀ r ∈ hullRows cfg D "move" obs, (feats.map fun f => a f * r f).sum = 0 := by
          intro r hr'
          apply List.sum_eq_zero
          intro y hy
          obtain ⟨f, hf, rfl⟩ := List.mem_map.mp hy
          rw [(rows_eq hr').2 f (by rintro rfl; exact hc hf), mul_zero]
        obtain ⟨r5, h5, e5⟩ := five_mem
        obtain ⟨r3, h3, e3⟩ := three_mem
        have k5 := hr r5 h5
        have k3 := hr r3 h3
        rw [hz r5 h5, e5] at k5
        rw [hz r3 h3, e3] at k3
        linarith
      · exact fun r hr' => (rows_eq hr').2 c hm
  digits := by decide
  nonempty := by
    obtain ⟨r, hr, _⟩ := five_mem
    exact List.ne_nil_of_mem hr
  nodup := by rw [cols_eq]; decide
  noDummy := by rw [cols_eq]; decide +kernel
  data := by
    intro r hr c hc
    rw [cols_eq] at hc
    have : c = ["(fuel ?o)"] := by simpa using hc
    subst this
    rcases (rows_eq hr).1 with h | h <;> rw [h]
    · exact_mod_cast p4 5
    · exact_mod_cast p4 3
  fitPrint := by
    intro feats c cs b h k hk
    simp only [cfg, lib] at h
    split_ifs at h with h0
    simp only [Option.some.injEq, Prod.mk.injEq] at h
    obtain ⟨rfl, rfl⟩ := h
    left
    simp at hk
    rcases hk with h | h
    · exact h.2
    · exact h
  facetPrint := by intro left h he; simp [cfg, lib] at he
  separated := by
    intro left hl r hr s hs
    rw [cols_eq] at hl
    by_cases hin : ∃ r' ∈ s, ∀ c ∈ left, r' c = r c
    · exact .inl (tri_inAffine hin)
    · right
      push Not at hin
      intro q hq
      have hleft : left = [] ∨ left = [["(fuel ?o)"]] := by
        cases left with
        | nil => exact .inl rfl
        | cons c t =>
          right
          have := hl.length_le
          have ht : t = [] := by cases t with | nil => rfl | cons => simp at this
          subst ht
          have := hl.subset (show c ∈ [c] by simp)
          simpa using this
      by_cases hs0 : s = []
      · subst hs0
        obtain ⟨w, h1, h2, _⟩ := hq
        have : w = [] := by simpa using h1
        subst this
        simp at h2
      · obtain ⟨r0, hr0⟩ := List.exists_mem_of_ne_nil _ hs0
        rcases hleft with rfl | rfl
        · obtain ⟨c, hc, _⟩ := hin r0 hr0; simp at hc
        · have hother : ∀ r' ∈ s, r' ["(fuel ?o)"] = 8 - r ["(fuel ?o)"] := by
            intro r' hr'
            obtain ⟨c, hc, hne⟩ := hin r' hr'
            have : c = ["(fuel ?o)"] := by simpa using hc
            subst this
            rcases (rows_eq hr).1 with h | h <;> rcases (rows_eq (hs r' hr')).1 with h' | h' <;> rw [h, h'] at hne ⊢ <;> first | exact absurd rfl hne | norm_num
          refine ⟨["(fuel ?o)"], by simp, ?_⟩
          rw [tri_affine_const hq (by simp) hother]
          rcases (rows_eq hr).1 with h | h <;> rw [h] <;> norm_num [cfg, abs]

theorem feats_eq : regFeats 4 [["(fuel ?o)"]] [["(fuel ?o)"]] (regressionRows cfg D "move" obs) = [["(fuel ?o)"]] := by decide +kernel

theorem printable : CoefficientsPrintable cfg.reg cfg.digits (usedCols none (prevColumns cfg D "move")) (usedCols none (nextColumns cfg D "move"))
    (regressionRows cfg D "move" obs) := by
  rw [cols_eq, nextCols_eq]
  intro f hf
  have : f = ["(fuel ?o)"] := by simpa [usedCols] using hf
  subst this
  have e0 : regFeats cfg.digits (usedCols none [["(fuel ?o)"]]) (usedCols none [["(fuel ?o)"]]) (regressionRows cfg D "move" obs) = [["(fuel ?o)"]] := feats_eq
  rw [e0]
  have e : cfg.reg.solve [["(fuel ?o)"]] (regLabels (usedCols none [["(fuel ?o)"]]) (usedCols none [["(fuel ?o)"]]) (regressionRows cfg D "move" obs) ["(fuel ?o)"])
      = (([1], -1), true) := by decide +kernel
  rw [e]
  refine ⟨?_, ?_⟩
  · intro c hc
    simp only [List.cons_append, List.nil_append, List.mem_cons, List.not_mem_nil, or_false] at hc
    rcases hc with rfl | rfl
    · exact_mod_cast p4 1
    · exact_mod_cast p4 (-1)
  · intro i hi hi' _
    have : i = 0 := by simpa using hi
    subst this
    left
    simp

/-- C62 applies: where the learned action may be executed, so may the true one, and one unit of fuel is
consumed. -/
theorem move_safe {N' : NumLearner ℚ} {info} (h : (NumLearner.init D).learn cfg obs = .ok (N', info)) (ρ : String → String) (s : State)
    (x : String → ℚ) (hs : applicable (N'.base.dom.act "move").pre ρ s) (hx : ∀ q ∈ (N'.num "move").pre, q.holds x) :
    applicable (truth "move").pre ρ s ∧ 1 ≤ monoVal x ["(fuel ?o)"] ∧
      applyNumeric (N'.num "move").eff x "(fuel ?o)" = 1 * monoVal x ["(fuel ?o)"] + 0 + -1 := by
  obtain ⟨N, i, h', hn, hp, he, _⟩ := run
  rw [h'] at h
  simp only [Except.ok.injEq, Prod.mk.injEq] at h
  obtain ⟨rfl, rfl⟩ := h
  have := C62_numeric_model_safe wfD wfT good (by simp [cfg]) rfl rfl (by decide) (guess_contract _) h' (by rw [hn]; simp) textOK
      ⟨_, scope_iff.mpr rfl⟩ explained (rel := none) rfl convex (Or.inl setup) printable (by rw [he]; decide) ρ s x hs hx
  exact ⟨this.1, this.2.1, this.2.2.1 _ (scope_iff.mpr rfl)⟩

/-- C61 applies to the same data. -/
example {N : NumLearner ℚ} (h : NumLearner.process cfg (NumLearner.init D .noRemove) obs.flatten = .ok N) :
    ∃ st, N.store.lookup "move" = some st ∧ st.prev.cols = [["(fuel ?o)"]] := by
  obtain ⟨st, h1, h2, _⟩ := C61_storage wfD wfT good h (by decide) textOK explained ⟨_, scope_iff.mpr rfl⟩ (by exact List.cons_ne_nil n1 [n2, n4])
  exact ⟨st, h1, by rw [h2, cols_eq]⟩

example : (match NumLearner.process cfg (NumLearner.init D .noRemove) obs.flatten with
    | .ok N => decide ((N.store.lookup "move").map (fun st => (st.hull.rows.length, st.prev.rows.length)) = some (2, 3))
    | .error _ => false) = true := by decide +kernel

/-- The hypotheses of C62 about a state are met by an unobserved one: 4 units of fuel. -/
example : ∃ N' info, (NumLearner.init D).learn cfg obs = .ok (N', info) ∧
    (∀ q ∈ (N'.num "move").pre, q.holds fun _ => 4) ∧
    applicable (N'.base.dom.act "move").pre (fun p => if p = "?o" then "b" else if p = "?x" then "l7" else "l9")
      {⟨"at", ["b", "l7"]⟩, ⟨"power", []⟩} := by
  have h : (match (NumLearner.init D).learn cfg obs with
    | .ok (N', _) => decide ((N'.num "move").pre = [⟨.ge, .var "(fuel ?o)", .num 3⟩, ⟨.le, .var "(fuel ?o)", .num 5⟩] ∧
        applicable (N'.base.dom.act "move").pre (fun p => if p = "?o" then "b" else if p = "?x" then "l7" else "l9")
          {⟨"at", ["b", "l7"]⟩, ⟨"power", []⟩})
    | .error _ => false) = true := by decide +kernel
  revert h
  cases (NumLearner.init D).learn cfg obs with
  | error e => intro h; exact absurd h (by simp)
  | ok r =>
    intro h
    have h := of_decide_eq_true h
    refine ⟨r.1, r.2, rfl, ?_, h.2⟩
    rw [h.1]
    intro q hq
    simp only [List.mem_cons, List.not_mem_nil, or_false] at hq
    rcases hq with rfl | rfl
    · show (3 : ℚ) ≤ 4; norm_num
    · show (4 : ℚ) ≤ 5; norm_num

/-- SAM learns from the same data that the two places are different; N-SAM does not return that. -/
theorem ineq_contrast :
    (match (Learner.init D).learn (obs.map fun o => o.map NumComponent.comp) with
      | .ok (L', _) => decide ((L'.dom.act "move").ineq = {("?x", "?y")})
      | .error _ => false) = true ∧
    (match (NumLearner.init D).learn cfg obs with
      | .ok (N', _) => decide ((N'.base.dom.act "move").ineq = ∅)
      | .error _ => false) = true := by
  constructor <;> decide +kernel

/-- C63 applies: only `move` is reported (with a usable observation) and returned. -/
example {N' : NumLearner ℚ} {info} (h : (NumLearner.init D).learn cfg obs = .ok (N', info)) (s : NumStatus) : ("paint", s) ∉ info := by
  intro hs
  obtain ⟨_, c, hc, h1, h2, _⟩ := ((C63_returned_actions wfD.names (by simp [cfg]) h).2.1 "paint").mp ⟨s, hs⟩
  simp only [obs, List.flatten_cons, List.flatten_nil, List.cons_append, List.nil_append, List.append_nil,
      List.mem_cons, List.not_mem_nil, or_false] at hc
  rcases hc with rfl | rfl | rfl | rfl
  · exact absurd h2 (by decide)
  · exact absurd h1 (by decide)
  · exact absurd h2 (by decide)
  · exact absurd h2 (by decide)

example {N' : NumLearner ℚ} {info} (h : (NumLearner.init D).learn cfg obs = .ok (N', info)) : ("move", NumStatus.noSolutionFound) ∉ info :=
  C63_effects_found wfD wfT good (by simp [cfg]) (guess_contract _) h (by decide) textOK ⟨_, scope_iff.mpr rfl⟩ explained (rel := none) rfl convex

/-- The moves are observed, but the relevant fluents mention only another action: learning raises. -/
example : ∃ e, (NumLearner.init D).learn { cfg with relevant := some [("other", [])] } obs = .error e :=
  C63_missing_fluents (a := "move") wfD.names (by simp [cfg]) rfl (by decide) ⟨n1, by simp [obs], rfl, rfl, by decide⟩ (by decide)

/-- A function that no parameter of `move` fits. -/
noncomputable def cfgEmpty : NumCfg ℚ := { cfg with fns := [⟨"heat", [("?t", ⟨"oven", ["object"]⟩)]⟩] }

/-- Limit of C62 and C63: an observed action to which no numeric function applies makes the learner crash
(unless the relevant fluents are given), although the domain has functions. -/
theorem C63_limit_no_functions :
    (match (NumLearner.init D).learn cfgEmpty [[⟨c1, [(⟨"heat", ["o1"]⟩, 5)], [(⟨"heat", ["o1"]⟩, 5)]⟩]] with
      | .error (.py .attributeError) => true
      | _ => false) = true := by decide +kernel

/-- Limit: when a function has no value in some states, new points can be lost: after the points (1, 1)
and (1, 2) of `a` and `c`, the point 5 of `a` alone is not stored, since the column of `c` is dropped and
the two old points become equal. -/
theorem C61_limit_lost_point :
    ((storePoint (storePoint (storePoint (⟨["a", "c"], []⟩ : Frame String ℚ) [("a", 1), ("c", 1)]) [("a", 1), ("c", 2)]) [("a", 5)]).rows.map
      fun r => r "a") = [1, 1] := by decide +kernel

/-- Limit: the regression data of all earlier observations is lost when the last common column
disappears: the next observation starts again. -/
theorem C61_limit_data_reset :
    (addObs (addObs (addObs (⟨["a", "c"], []⟩ : Frame String ℚ) (sampleFrame [("a", 1)])) (sampleFrame [("c", 2)])) (sampleFrame [("a", 5)])).rows.map
      (fun r => r "a") = [5] := by decide +kernel

end NumWorld
