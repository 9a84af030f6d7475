import Verif.Props.OnlineDomain
import Verif.Spec.Hybrid

/-! C109: plans of the safe domain built by the online learner. -/
namespace Props
namespace OnlineSafety
open Model Spec Model.OnlineDomain Props.OnlineDomain

variable {K : Type} [Field K] [LinearOrder K] [IsStrictOrderedRing K] [FloorRing K]

/-- One step of a constructed domain: the action accepts the state; its discrete effects are applied, and its numeric effects to the
fluents they name. -/
def builtStep (acts : List (String × OAction K)) (s : HybridState K) (c : HybridCall) (s' : HybridState K) : Prop :=
  ∃ A, (c.name, A) ∈ acts ∧ Accepts A c.ρ s.1 (fun f => s.2 (c.fluent f)) ∧
    s' = (successor A.eff c.ρ s.1, assignAll (A.numEff.map (·.target)) c.fluent (applyNumeric A.numEff fun f => s.2 (c.fluent f)) s.2)

/-- The successes of an action were produced by the true action `T`; of the failures, discrete or numeric, nothing is assumed. -/
structure Produced (T : HybridAction K) (x : Experience K) : Prop where
  functions : x.functions = T.functions
  pre : T.pre ⊆ x.voc
  held : ∀ b ∈ x.attempts, b.ok = true → applicable T.pre b.ρ b.before
  eff : EffTrue x.voc x.attempts T.eff
  full : FullHistory x.functions x.transitions
  region : ∀ t ∈ x.transitions, t.ok = true → T.region (monoVal (valOf t.pre))
  convex : ∀ (pts : List (List String → K)) (v : List String → K), (∀ r ∈ pts, T.region r) →
    InHull (createMonomials x.functions x.degree) pts v → T.region v
  cols : ∀ f ∈ x.functions, ∀ c ∈ (T.num f).cols, c ∈ createMonomials x.functions x.degree
  next : ∀ t ∈ x.transitions, t.ok = true → ∀ f ∈ x.functions, valOf t.post f = (T.num f).value (monoVal (valOf t.pre))
  both : (∃ t ∈ x.transitions, t.ok = true) ∨ ((∀ b ∈ x.attempts, b.ok = false) ∧ ∃ l ∈ x.voc, l.neg ∈ x.voc)

/-- The numeric libraries behave on the successes of the action as their contracts say. -/
structure Exact (cfg : ONumCfg K) (x : Experience K) : Prop where
  hull : (∃ t ∈ x.transitions, t.ok = true) → IncSetup cfg.lib cfg.digits polyExp (createMonomials x.functions x.degree)
      (distinctRows (createMonomials x.functions x.degree) [] (successPoints x.functions x.degree x.transitions))
  print : CoefficientsPrintable cfg.reg cfg.digits (createMonomials x.functions x.degree) (x.functions.map ([·]))
    (transitionRows x.functions x.degree x.transitions)

/-- The learners of the action have had this experience. -/
structure Knows (cfg : ONumCfg K) (Ds : List (String × DiscreteOnline)) (Ns : List (String × ONum K)) (a : String) (x : Experience K) : Prop where
  disc : Ds.lookup a = some (learned x.voc x.attempts)
  numeric : ∃ num, Ns.lookup a = some num ∧ onumLearned cfg x.functions x.degree x.transitions = (num, false)

/-- The substitution of the call is injective on the names of the vocabulary, and its functions are different fluents. -/
structure ProperCall (x : Experience K) (c : HybridCall) : Prop where
  inj : InjectiveOn x.voc c.ρ
  fluents : ∀ f ∈ x.functions, ∀ g ∈ x.functions, c.fluent f = c.fluent g → f = g

/-- A state outside the columns does not matter for a convex region. -/
theorem region_frame {T : HybridAction K} {x : Experience K} (hT : Produced T x) :
    ∀ r ∈ successPoints x.functions x.degree x.transitions, T.region r := by
  intro r hr
  obtain ⟨t, ht, rfl⟩ := List.mem_map.mp hr
  have ht' := List.mem_filter.mp ht
  refine hT.convex [monoVal (valOf t.pre)] _ (by simpa using hT.region t ht'.1 ht'.2) ?_
  refine inHull_agree (v := monoVal (valOf t.pre)) ?_ (inHull_row (List.mem_singleton.mpr rfl))
  intro c hc
  unfold frameRow
  rw [if_pos hc]

theorem assign_same {fs ts : List String} {fl : String → String} {new new' w : String → K}
    (hinj : ∀ f ∈ fs, ∀ g ∈ fs, fl f = fl g → f = g) (hsub : ∀ t ∈ ts, t ∈ fs) (hnew : ∀ f ∈ fs, new f = new' f)
    (hkeep : ∀ f ∈ fs, f ∉ ts → new f = w (fl f)) : assignAll ts fl new w = assignAll fs fl new' w := by
  funext g
  unfold assignAll
  cases h1 : ts.find? (fun f => fl f == g) with
  | some f =>
    have hf := List.mem_of_find?_eq_some h1
    have hfg : fl f = g := by simpa using List.find?_some h1
    cases h2 : fs.find? (fun f => fl f == g) with
    | none => exact absurd (by simpa using hfg) (List.find?_eq_none.mp h2 f (hsub f hf))
    | some f' =>
      have hf' := List.mem_of_find?_eq_some h2
      have hfg' : fl f' = g := by simpa using List.find?_some h2
      have : f = f' := hinj f (hsub f hf) f' hf' (hfg.trans hfg'.symm)
      subst this
      exact hnew f hf'
  | none =>
    cases h2 : fs.find? (fun f => fl f == g) with
    | none => rfl
    | some f' =>
      have hf' := List.mem_of_find?_eq_some h2
      have hfg' : fl f' = g := by simpa using List.find?_some h2
      have hn : f' ∉ ts := fun hh => absurd (by simpa using hfg') (List.find?_eq_none.mp h1 f' hh)
      dsimp only
      rw [← hnew f' hf', hkeep f' hf' hn, hfg']

/-- **C109, one action.** Let the successes of an action be produced by a true one with a conjunctive discrete precondition, a convex
numeric one and affine numeric effects. In every state that its action in the safe domain accepts, the true action is applicable, and the
next state (discrete part, value of every fluent) is the true one. Failures, and to which of the two learners each of them was attributed,
do not matter. -/
theorem C109_step {cfg : ONumCfg K} {add : Cond → Cond → Cond} {ord : LitOrd} (hadd : AddOK add) (ho : EnumNodup ord) (hplain : cfg.plain = true)
    (hdig : cfg.digits ≤ 10) (hR : RegContract cfg.reg) {names : List String}
    {Ds : List (String × DiscreteOnline)} {Ns : List (String × ONum K)} {acts : List (String × OAction K)}
    (h : constructSafe cfg add ord names Ds Ns = .ok acts) (hsd : ∀ a A, (a, A) ∈ acts → ∀ e ∈ A.numEff, e.op ≠ .scaleDown)
    {D : String → HybridAction K} {X : String → Experience K} {c : HybridCall} (hk : Knows cfg Ds Ns c.name (X c.name)) (hT : Produced (D c.name) (X c.name))
    (hx : Exact cfg (X c.name)) (hc : ProperCall (X c.name) c) {s s' : HybridState K} (hs : builtStep acts s c s') : trueStep D s c s' := by
  obtain ⟨A, hA, hacc, rfl⟩ := hs
  have hsd' := hsd _ _ hA
  obtain ⟨L, N, n, e1, e2, e3, rfl⟩ := buildOne_ok.mp ((build_ok.mp h).2 _ hA)
  obtain ⟨num, hnum, hrun⟩ := hk.numeric
  dsimp only at e1 e2
  rw [hk.disc] at e1
  rw [hnum] at e2
  cases e1; cases e2
  unfold Accepts buildAction at hacc
  dsimp only at hacc
  obtain ⟨h1, h2⟩ := hacc
  obtain ⟨ks, hks⟩ := safe_node hadd ord (learned (X c.name).voc (X c.name).attempts)
  have h1' : applicable (learned (X c.name).voc (X c.name).attempts).safeModel.1 c.ρ s.1 := by
    rw [hks] at h1
    have := (rebuilt hadd c.ρ s.1 ks).mp h1
    rw [← hks] at this
    unfold safeDiscrete at this
    dsimp only at this
    rw [nodeOf_and hadd (val c.ρ s.1)] at this
    simp only [ho.mem] at this
    exact this
  have inv := onlineInv (X c.name).voc (X c.name).attempts
  have hsafe : ∀ l, l ∈ (learned (X c.name).voc (X c.name).attempts).safeModel.1 ↔ l ∈ (X c.name).voc ∧ l ∉ (learned (X c.name).voc (X c.name).attempts).cannotPre := by
    intro l
    change l ∈ (learned (X c.name).voc (X c.name).attempts).superset \ _ ↔ _
    rw [learned_superset, Finset.mem_sdiff]
  -- some success was observed
  have hok : ∃ t ∈ (X c.name).transitions, t.ok = true := by
    rcases hT.both with hh | ⟨hf, l, hl, hl'⟩
    · exact hh
    · exfalso
      have hall : ∀ l ∈ (X c.name).voc, holds s.1 (ground c.ρ l) := by
        intro l hl
        refine h1' l ((hsafe l).mpr ⟨hl, fun hcn => ?_⟩)
        obtain ⟨_, a, ha, hk, _⟩ := (inv.cannotPre l).mp hcn
        rw [hf a ha] at hk; cases hk
      have g1 := hall l hl
      have g2 := hall l.neg hl'
      unfold holds at g1 g2
      cases hp : l.pos <;> simp [ground, hp, Lit.neg, Lit.atom] at g1 g2 <;> contradiction
  have S := hx.hull hok
  have hpre : applicable (D c.name).pre c.ρ s.1 := by
    intro l hl
    refine h1' l ((hsafe l).mpr ⟨hT.pre hl, fun hcn => ?_⟩)
    obtain ⟨_, a, ha, hk, hb⟩ := (inv.cannotPre l).mp hcn
    exact hb (hT.held a ha hk l hl)
  have hreg : (D c.name).region (monoVal fun f => s.2 (c.fluent f)) :=
    hT.convex _ _ (region_frame hT) ((C79_safe_precondition hT.full hplain hrun S e3 _).mp h2)
  have hval : ∀ f ∈ (X c.name).functions, applyNumeric n.eff (fun f => s.2 (c.fluent f)) f = ((D c.name).num f).value (monoVal fun f => s.2 (c.fluent f)) :=
    fun f hf => C79_safe_effects hT.full hplain hdig hR hrun S hx.print e3 hsd' hf _ (hT.cols f hf) (fun t ht hk => hT.next t ht hk f hf) h2
  have htar := C79_targets hT.full hdig hR hrun hok hx.print e3 hsd'
  refine ⟨hpre, hreg, ?_⟩
  unfold buildAction safeDiscrete
  dsimp only
  rw [C33_safe_next_state hT.eff hc.inj h1', ← hT.functions]
  congr 1
  refine assign_same hc.fluents ?_ hval ?_
  · intro t ht
    obtain ⟨e, he, rfl⟩ := List.mem_map.mp ht
    exact htar e he
  · intro f hf hn
    unfold applyNumeric
    have : n.eff.find? (fun e => e.target == f) = none := by
      rw [List.find?_eq_none]
      intro e he hh
      exact hn (List.mem_map.mpr ⟨e, he, by simpa using hh⟩)
    rw [this]

/-- **C109, plans.** Every plan of the safe domain is a plan of the true domain, and leads to the same state. -/
theorem C109_plan {cfg : ONumCfg K} {add : Cond → Cond → Cond} {ord : LitOrd} (hadd : AddOK add) (ho : EnumNodup ord) (hplain : cfg.plain = true)
    (hdig : cfg.digits ≤ 10) (hR : RegContract cfg.reg) {names : List String}
    {Ds : List (String × DiscreteOnline)} {Ns : List (String × ONum K)} {acts : List (String × OAction K)}
    (h : constructSafe cfg add ord names Ds Ns = .ok acts) (hsd : ∀ a A, (a, A) ∈ acts → ∀ e ∈ A.numEff, e.op ≠ .scaleDown)
    {D : String → HybridAction K} {X : String → Experience K} (hk : ∀ a ∈ names, Knows cfg Ds Ns a (X a)) (hT : ∀ a ∈ names, Produced (D a) (X a))
    (hx : ∀ a ∈ names, Exact cfg (X a)) {plan : List HybridCall} (hc : ∀ c ∈ plan, ProperCall (X c.name) c) {s s' : HybridState K}
    (hs : Leads (builtStep acts) s plan s') : Leads (trueStep D) s plan s' := by
  induction plan generalizing s with
  | nil => exact hs
  | cons c cs ih =>
    obtain ⟨m, h1, h2⟩ := hs
    have hmem : c.name ∈ names := by
      obtain ⟨A, hA, _⟩ := h1
      rw [← (build_ok.mp h).1]
      exact List.mem_map.mpr ⟨_, hA, rfl⟩
    exact ⟨m, C109_step hadd ho hplain hdig hR h hsd (hk _ hmem) (hT _ hmem) (hx _ hmem) (hc c (by simp)) h1,
      ih (fun d hd => hc d (List.mem_cons_of_mem _ hd)) h2⟩

/-! ### A concrete case -/
namespace Case
open OnlineCase Props.OnlineDomain.Case

def moved : Lit := ⟨"moved", ["?o"], true⟩
def voc2 : Finset Lit := {ready, ready.neg, moved, moved.neg}
def after : State := {⟨"ready", ["car"]⟩, ⟨"moved", ["car"]⟩}
/-- The car moved twice when it was ready, and did not once when it was not. -/
def attempts2 : List Attempt := [⟨Props.OnlineDomain.Case.ρ, on, after, true⟩, ⟨Props.OnlineDomain.Case.ρ, on, after, true⟩, ⟨Props.OnlineDomain.Case.ρ, ∅, ∅, false⟩]
def x2 : Experience ℚ := ⟨voc2, attempts2, fs, 0, history⟩

/-- Moving needs a ready car with at least 2 units of fuel and uses one. -/
def move : HybridAction ℚ := ⟨{ready}, {moved}, fs, fun v => 2 ≤ v col, fun _ => ⟨[col], fun _ => 1, -1⟩⟩

theorem produced : Produced move x2 where
  functions := rfl
  pre := by decide +kernel
  held := by decide +kernel
  eff := ⟨by decide +kernel, by decide +kernel, by decide +kernel, by
    intro a ha hok
    have : a.ρ = Props.OnlineDomain.Case.ρ := by
      simp only [x2, attempts2, List.mem_cons, List.not_mem_nil, or_false] at ha
      rcases ha with rfl | rfl | rfl <;> rfl
    rw [this]
    unfold InjectiveOn
    decide +kernel⟩
  full := full
  region := by
    intro t ht hok
    simp only [x2, history, List.mem_cons, List.not_mem_nil, or_false] at ht
    rcases ht with rfl | rfl | rfl | rfl <;> simp_all [attempt, valOf, move, monoVal]
    all_goals norm_num
  convex := by
    intro pts v hp hv
    have := form_hull (a := [1]) (cols := [col]) (b := 2) (fun r hr => by simpa [form, move] using hp r hr) hv
    simpa [form, move] using this
  cols := by
    intro f hf c hc
    have : c = col := by simpa [move] using hc
    rw [this]
    exact List.mem_singleton.mpr rfl
  next := by
    intro t ht hok f hf
    have : f = "(fuel ?o)" := by simpa [x2] using hf
    subst this
    simp only [x2, history, List.mem_cons, List.not_mem_nil, or_false] at ht
    rcases ht with rfl | rfl | rfl | rfl <;> simp_all [attempt, valOf, move, monoVal, Affine.value]
    all_goals norm_num
  both := Or.inl ⟨attempt 5 4 true, by simp [x2, history], rfl⟩

theorem exact2 : Exact cfg x2 := ⟨fun _ => inc, printable⟩

noncomputable def Ds2 : List (String × DiscreteOnline) := [("move", learned voc2 attempts2)]

theorem knows : Knows cfg Ds2 Ns "move" x2 := ⟨rfl, num, rfl, run_eq⟩

def call : HybridCall := ⟨"move", Props.OnlineDomain.Case.ρ, fun f => if f = "(fuel ?o)" then "(fuel car)" else f⟩

theorem proper : ProperCall x2 call := ⟨by unfold InjectiveOn; decide +kernel, by decide +kernel⟩

/-- The safe domain exists, a ready car with 4 units of fuel can move in it, and so it can in the true domain, to the same state. -/
example : ∃ A, constructSafe cfg add ord ["move"] Ds2 Ns = .ok [("move", A)] ∧ ∃ s',
    Leads (builtStep [("move", A)]) (on, fun _ => 4) [call] s' ∧ Leads (trueStep fun _ => move) (on, fun _ => 4) [call] s' ∧ s'.2 "(fuel car)" = 3 ∧
    ⟨"moved", ["car"]⟩ ∈ s'.1 := by
  obtain ⟨p, hp, hpre, heff⟩ := safe
  have e1 : constructSafe cfg add ord ["move"] Ds2 Ns = .ok [("move", buildAction add (safeDiscrete add ord (learned voc2 attempts2)) p)] :=
    build_ok.mpr ⟨rfl, fun q hq => by rw [List.mem_singleton.mp hq]; exact buildOne_ok.mpr ⟨_, _, p, rfl, rfl, hp, rfl⟩⟩
  have hacc : Accepts (buildAction add (safeDiscrete add ord (learned voc2 attempts2)) p) call.ρ on (fun _ => (4 : ℚ)) := by
    refine ⟨?_, ?_⟩
    · unfold buildAction
      dsimp only
      obtain ⟨ks, hk⟩ := safe_node addOK ord (learned voc2 attempts2)
      rw [hk]
      refine (rebuilt addOK _ _ ks).mpr ?_
      rw [← hk]
      unfold safeDiscrete
      dsimp only
      rw [nodeOf_and addOK (val _ _)]
      simp only [ordOK.mem]
      show ∀ l ∈ (learned voc2 attempts2).safeModel.1, holds on (ground Props.OnlineDomain.Case.ρ l)
      decide +kernel
    · show ∀ q ∈ p.pre, q.holds _
      rw [hpre]
      simp only [List.mem_cons, List.not_mem_nil, or_false, forall_eq_or_imp, forall_eq]
      unfold NCond.holds
      simp only [NExp.eval]
      norm_num
  have hl : Leads (builtStep [("move", buildAction add (safeDiscrete add ord (learned voc2 attempts2)) p)]) (on, fun _ => 4) [call] _ :=
    ⟨_, ⟨_, List.mem_singleton.mpr rfl, hacc, rfl⟩, rfl⟩
  refine ⟨_, e1, _, hl, ?_, ?_, ?_⟩
  · refine C109_plan (X := fun _ => x2) addOK ordOK rfl (by decide) (guess_contract _) e1 ?_ ?_ (fun _ _ => produced) (fun _ _ => exact2)
      (fun c hc => by rw [List.mem_singleton.mp hc]; exact proper) hl
    · intro a A hA e he
      have : A = buildAction add (safeDiscrete add ord (learned voc2 attempts2)) p := by
        have := List.mem_singleton.mp hA
        exact (Prod.mk.inj this).2
      subst this
      have he' : e ∈ p.eff := he
      rw [heff, List.mem_singleton] at he'
      rw [he']
      decide
    · intro a ha
      rw [List.mem_singleton.mp ha]
      exact knows
  · show assignAll (p.eff.map (·.target)) call.fluent (applyNumeric p.eff fun _ => (4 : ℚ)) (fun _ => 4) "(fuel car)" = 3
    rw [heff]
    have : assignAll ([(⟨.decrease, "(fuel ?o)", .num 1⟩ : NEffect ℚ)].map (·.target)) call.fluent
      (applyNumeric [(⟨.decrease, "(fuel ?o)", .num 1⟩ : NEffect ℚ)] fun _ => (4 : ℚ)) (fun _ => 4) "(fuel car)" = 3 := by decide +kernel
    exact this
  · show _ ∈ successor (learned voc2 attempts2).safeModel.2 Props.OnlineDomain.Case.ρ on
    decide +kernel

end Case
end OnlineSafety
end Props
