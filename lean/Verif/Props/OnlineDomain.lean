import Verif.Model.OnlineDomain
import Verif.Props.Online
import Verif.Props.OnlineNumericCase

/-! C108: the domains constructed by the online learners. -/
namespace Props
namespace OnlineDomain
open Model Spec Model.OnlineDomain

/-- A state, with discrete part `s` and values `v` of the lifted functions, satisfies the precondition of an action. -/
def Accepts {K : Type} [Field K] [LinearOrder K] (A : OAction K) (ρ : String → String) (s : State) (v : String → K) : Prop :=
  Cond.eval (fun l => holds s (ground ρ l)) A.pre ∧ ∀ q ∈ A.num, q.holds v

section
variable {K : Type} [Field K] [LinearOrder K] [IsStrictOrderedRing K] [FloorRing K]

theorem val (ρ : String → String) (s : State) : Valuation (fun l => holds s (ground ρ l)) := by
  intro l
  unfold holds
  cases hp : l.pos <;> simp [ground, hp, Lit.neg, Lit.atom]

theorem build_ok {one : String → Except NumErr (OAction K)} : ∀ {names : List String} {acts : List (String × OAction K)},
    build one names = .ok acts ↔ acts.map Prod.fst = names ∧ ∀ p ∈ acts, one p.1 = .ok p.2 := by
  intro names
  induction names with
  | nil =>
    intro acts
    unfold build
    constructor
    · intro h; cases h; simp
    · rintro ⟨h, _⟩; rw [List.map_eq_nil_iff] at h; rw [h]
  | cons a as ih =>
    intro acts
    unfold build
    cases ho : one a with
    | error e =>
      dsimp only
      constructor
      · intro h; cases h
      · rintro ⟨h1, h2⟩
        cases acts with
        | nil => simp at h1
        | cons p ps =>
          rw [List.map_cons, List.cons.injEq] at h1
          have := h2 p (by simp)
          rw [h1.1, ho] at this
          cases this
    | ok A =>
      dsimp only
      cases hb : build one as with
      | error e =>
        dsimp only
        constructor
        · intro h; cases h
        · rintro ⟨h1, h2⟩
          cases acts with
          | nil => simp at h1
          | cons p ps =>
            rw [List.map_cons, List.cons.injEq] at h1
            have := ih.mpr ⟨h1.2, fun q hq => h2 q (List.mem_cons_of_mem _ hq)⟩
            rw [hb] at this
            cases this
      | ok r =>
        dsimp only
        obtain ⟨i1, i2⟩ := ih.mp hb
        constructor
        · intro h
          cases h
          refine ⟨by rw [List.map_cons, i1], ?_⟩
          intro p hp
          rcases List.mem_cons.mp hp with rfl | hp
          · exact ho
          · exact i2 p hp
        · rintro ⟨h1, h2⟩
          cases acts with
          | nil => simp at h1
          | cons p ps =>
            rw [List.map_cons, List.cons.injEq] at h1
            have e1 := h2 p (by simp)
            rw [h1.1, ho] at e1
            have e2 := ih.mpr ⟨h1.2, fun q hq => h2 q (List.mem_cons_of_mem _ hq)⟩
            rw [hb] at e2
            cases e2
            cases e1
            rw [← h1.1]

theorem build_error {one : String → Except NumErr (OAction K)} {e : NumErr} : ∀ {names : List String},
    build one names = .error e ↔ ∃ before a after, names = before ++ a :: after ∧ (∀ b ∈ before, ∃ B, one b = .ok B) ∧ one a = .error e := by
  intro names
  induction names with
  | nil => unfold build; simp
  | cons a as ih =>
    unfold build
    cases ho : one a with
    | error e' =>
      dsimp only
      constructor
      · intro h; cases h; exact ⟨[], a, as, rfl, by simp, ho⟩
      · rintro ⟨before, b, after, h1, h2, h3⟩
        cases before with
        | nil =>
          rw [List.nil_append, List.cons.injEq] at h1
          rw [← h1.1, ho] at h3; cases h3; rfl
        | cons c cs =>
          rw [List.cons_append, List.cons.injEq] at h1
          obtain ⟨B, hB⟩ := h2 c (by simp)
          rw [← h1.1, ho] at hB; cases hB
    | ok A =>
      dsimp only
      constructor
      · intro h
        cases hb : build one as with
        | ok r => rw [hb] at h; cases h
        | error e' =>
          rw [hb] at h
          cases h
          obtain ⟨before, b, after, h1, h2, h3⟩ := ih.mp hb
          refine ⟨a :: before, b, after, by rw [h1]; rfl, ?_, h3⟩
          intro c hc
          rcases List.mem_cons.mp hc with rfl | hc
          · exact ⟨A, ho⟩
          · exact h2 c hc
      · rintro ⟨before, b, after, h1, h2, h3⟩
        cases before with
        | nil =>
          rw [List.nil_append, List.cons.injEq] at h1
          rw [← h1.1, ho] at h3; cases h3
        | cons c cs =>
          rw [List.cons_append, List.cons.injEq] at h1
          rw [ih.mpr ⟨cs, b, after, h1.2, fun d hd => h2 d (List.mem_cons_of_mem _ hd), h3⟩]

theorem buildOne_ok {add : Cond → Cond → Cond} {md : DiscreteOnline → Cond × Finset Lit} {mn : ONum K → Except NumErr (NumPart K)}
    {Ds : List (String × DiscreteOnline)} {Ns : List (String × ONum K)} {a : String} {A : OAction K} :
    buildOne add md mn Ds Ns a = .ok A ↔ ∃ L N n, Ds.lookup a = some L ∧ Ns.lookup a = some N ∧ mn N = .ok n ∧ A = buildAction add (md L) n := by
  unfold buildOne
  cases hD : Ds.lookup a with
  | none => simp
  | some L =>
    cases hN : Ns.lookup a with
    | none => simp
    | some N =>
      cases hn : mn N with
      | error e => simp [hn]
      | ok n => simp [hn, eq_comm]

theorem buildOne_error {add : Cond → Cond → Cond} {md : DiscreteOnline → Cond × Finset Lit} {mn : ONum K → Except NumErr (NumPart K)}
    {Ds : List (String × DiscreteOnline)} {Ns : List (String × ONum K)} {a : String} {L : DiscreteOnline} {N : ONum K}
    (hD : Ds.lookup a = some L) (hN : Ns.lookup a = some N) {e : NumErr} : buildOne add md mn Ds Ns a = .error e ↔ mn N = .error e := by
  unfold buildOne
  rw [hD, hN]
  cases hn : mn N <;> simp [hn]

theorem rebuilt {add : Cond → Cond → Cond} (hadd : AddOK add) (ρ : String → String) (s : State) (ks : List Cond) :
    Cond.eval (fun l => holds s (ground ρ l)) (ks.foldl add (.node .and [])) ↔ Cond.eval (fun l => holds s (ground ρ l)) (.node .and ks) := by
  obtain ⟨ks', e1, e2⟩ := foldAdd_and hadd (val ρ s) id ks []
  simp only [id] at e1 e2
  rw [e1, e2]
  have : ∀ l : List Cond, Cond.evalAll (fun l => holds s (ground ρ l)) l ↔ ∀ x ∈ l, Cond.eval (fun l => holds s (ground ρ l)) x := by
    intro l
    induction l with
    | nil => simp [Cond.evalAll]
    | cons k l ih => simp [Cond.evalAll, ih]
  simp only [Cond.eval, this]
  simp

theorem optimistic_node {add : Cond → Cond → Cond} (hadd : AddOK add) (ord : LitOrd) (L : DiscreteOnline) :
    ∃ ks, (L.optimisticModel add ord).1 = .node .and ks := by
  obtain ⟨ks, e, _⟩ := foldAdd_and hadd (val id ∅) id (L.mustPre.filterMap (optimisticClause add ord)) []
  exact ⟨ks, e⟩

theorem safe_node {add : Cond → Cond → Cond} (hadd : AddOK add) (ord : LitOrd) (L : DiscreteOnline) :
    ∃ ks, (safeDiscrete add ord L).1 = .node .and ks := by
  obtain ⟨ks, e, _⟩ := foldAdd_and hadd (val id ∅) Cond.lit (ord L.safeModel.1) []
  exact ⟨ks, e⟩

/-- **C108, the actions.** A constructed domain has exactly the actions of the given one, in order, and every action is made of
the discrete and the numeric model of the learners with its own name. Same for the optimistic domain. -/
theorem C108_actions {cfg : ONumCfg K} {add : Cond → Cond → Cond} {ord : LitOrd} {names : List String} {Ds : List (String × DiscreteOnline)}
    {Ns : List (String × ONum K)} {acts : List (String × OAction K)} :
    (constructSafe cfg add ord names Ds Ns = .ok acts → acts.map Prod.fst = names ∧ ∀ a A, (a, A) ∈ acts → ∃ L N n,
      Ds.lookup a = some L ∧ Ns.lookup a = some N ∧ N.safeModel cfg = .ok n ∧ A.num = n.pre ∧ A.numEff = n.eff ∧ A.eff = L.safeModel.2) ∧
    (constructOptimistic cfg add ord names Ds Ns = .ok acts → acts.map Prod.fst = names ∧ ∀ a A, (a, A) ∈ acts → ∃ L N n,
      Ds.lookup a = some L ∧ Ns.lookup a = some N ∧ N.optimisticModel cfg = .ok n ∧ A.num = n.pre ∧ A.numEff = n.eff ∧
      A.eff = (L.optimisticModel add ord).2) := by
  constructor
  · intro h
    obtain ⟨h1, h2⟩ := build_ok.mp h
    refine ⟨h1, fun a A hA => ?_⟩
    obtain ⟨L, N, n, e1, e2, e3, rfl⟩ := buildOne_ok.mp (h2 _ hA)
    exact ⟨L, N, n, e1, e2, e3, rfl, rfl, rfl⟩
  · intro h
    obtain ⟨h1, h2⟩ := build_ok.mp h
    refine ⟨h1, fun a A hA => ?_⟩
    obtain ⟨L, N, n, e1, e2, e3, rfl⟩ := buildOne_ok.mp (h2 _ hA)
    exact ⟨L, N, n, e1, e2, e3, rfl, rfl, rfl⟩

/-- **C108, all or nothing.** If every action has its learners, the construction raises exactly when the numeric model of
some action raises, with the exception of the first such action: one such action, and there is no domain at all. -/
theorem C108_raises {cfg : ONumCfg K} {add : Cond → Cond → Cond} {ord : LitOrd} {names : List String} {Ds : List (String × DiscreteOnline)}
    {Ns : List (String × ONum K)} {num : String → ONum K} (hD : ∀ a ∈ names, ∃ L, Ds.lookup a = some L) (hN : ∀ a ∈ names, Ns.lookup a = some (num a))
    (e : NumErr) :
    (constructSafe cfg add ord names Ds Ns = .error e ↔ ∃ before a after, names = before ++ a :: after ∧
      (∀ b ∈ before, ∃ n, (num b).safeModel cfg = .ok n) ∧ (num a).safeModel cfg = .error e) ∧
    (constructOptimistic cfg add ord names Ds Ns = .error e ↔ ∃ before a after, names = before ++ a :: after ∧
      (∀ b ∈ before, ∃ n, (num b).optimisticModel cfg = .ok n) ∧ (num a).optimisticModel cfg = .error e) := by
  have key : ∀ (md : DiscreteOnline → Cond × Finset Lit) (mn : ONum K → Except NumErr (NumPart K)),
      build (buildOne add md mn Ds Ns) names = .error e ↔ ∃ before a after, names = before ++ a :: after ∧
        (∀ b ∈ before, ∃ n, mn (num b) = .ok n) ∧ mn (num a) = .error e := by
    intro md mn
    rw [build_error]
    constructor
    · rintro ⟨before, a, after, h1, h2, h3⟩
      obtain ⟨L, hL⟩ := hD a (by rw [h1]; simp)
      refine ⟨before, a, after, h1, fun b hb => ?_, (buildOne_error hL (hN a (by rw [h1]; simp))).mp h3⟩
      obtain ⟨B, hB⟩ := h2 b hb
      obtain ⟨L', N, n, _, e2, e3, _⟩ := buildOne_ok.mp hB
      rw [hN b (by rw [h1]; simp [hb])] at e2
      cases e2
      exact ⟨n, e3⟩
    · rintro ⟨before, a, after, h1, h2, h3⟩
      obtain ⟨L, hL⟩ := hD a (by rw [h1]; simp)
      refine ⟨before, a, after, h1, fun b hb => ?_, (buildOne_error hL (hN a (by rw [h1]; simp))).mpr h3⟩
      obtain ⟨n, hn⟩ := h2 b hb
      obtain ⟨L', hL'⟩ := hD b (by rw [h1]; simp [hb])
      exact ⟨_, buildOne_ok.mpr ⟨L', _, n, hL', hN b (by rw [h1]; simp [hb]), hn, rfl⟩⟩
  exact ⟨key _ _, key _ _⟩

/-- **C108, a limit.** An action without a learner raises a `KeyError`. -/
theorem C108_missing {cfg : ONumCfg K} {add : Cond → Cond → Cond} {ord : LitOrd} {Ds : List (String × DiscreteOnline)} {Ns : List (String × ONum K)}
    {a : String} {rest : List String} (h : Ds.lookup a = none ∨ Ns.lookup a = none) :
    constructSafe cfg add ord (a :: rest) Ds Ns = .error (.py .keyError) ∧ constructOptimistic cfg add ord (a :: rest) Ds Ns = .error (.py .keyError) := by
  have key : ∀ (md : DiscreteOnline → Cond × Finset Lit) (mn : ONum K → Except NumErr (NumPart K)), buildOne add md mn Ds Ns a = .error (.py .keyError) := by
    intro md mn
    unfold buildOne
    rcases h with h | h
    · rw [h]
    · cases Ds.lookup a with
      | none => rfl
      | some L => dsimp only; rw [h]
  constructor
  · unfold constructSafe build; rw [key]
  · unfold constructOptimistic build; rw [key]

/-- What an action has experienced: its vocabulary and functions, its discrete attempts and its numeric transitions. -/
structure Experience (K : Type) where
  voc : Finset Lit
  attempts : List Attempt
  functions : List String
  degree : Nat
  transitions : List (Transition K)

/-- The learners of action `a` have had this experience, and some precondition explains the attempts. -/
structure Taught (cfg : ONumCfg K) (Ds : List (String × DiscreteOnline)) (Ns : List (String × ONum K)) (a : String) (x : Experience K)
    (num : ONum K) : Prop where
  disc : Ds.lookup a = some (learned x.voc x.attempts)
  numeric : Ns.lookup a = some num
  run : onumLearned cfg x.functions x.degree x.transitions = (num, false)
  explained : ∃ T, PreConsistent x.voc x.attempts T

/-- **C108, the optimistic domain.** An action of the optimistic domain accepts a state exactly when some precondition that
explains the attempts holds in its discrete part and its values satisfy the optimistic numeric conditions. -/
theorem C108_optimistic {cfg : ONumCfg K} {add : Cond → Cond → Cond} {ord : LitOrd} (hadd : AddOK add) (ho : EnumNodup ord) {names : List String}
    {Ds : List (String × DiscreteOnline)} {Ns : List (String × ONum K)} {acts : List (String × OAction K)}
    (h : constructOptimistic cfg add ord names Ds Ns = .ok acts) {a : String} {A : OAction K} (hA : (a, A) ∈ acts) {x : Experience K} {num : ONum K}
    (ht : Taught cfg Ds Ns a x num) (ρ : String → String) (s : State) (v : String → K) :
    ∃ o, num.optimisticModel cfg = .ok o ∧ (Accepts A ρ s v ↔ (∃ T, PreConsistent x.voc x.attempts T ∧ applicable T ρ s) ∧ ∀ q ∈ o.pre, q.holds v) := by
  obtain ⟨L, N, n, e1, e2, e3, rfl⟩ := buildOne_ok.mp ((build_ok.mp h).2 _ hA)
  rw [ht.disc] at e1
  rw [ht.numeric] at e2
  cases e1; cases e2
  refine ⟨n, e3, ?_⟩
  unfold Accepts buildAction
  dsimp only
  obtain ⟨ks, hk⟩ := optimistic_node hadd ord (learned x.voc x.attempts)
  have := C32_optimistic_exact hadd ho ht.explained ρ s
  rw [hk] at this
  rw [hk, ← this]
  exact and_congr_left fun _ => rebuilt hadd ρ s ks

/-- **C108, the safe domain.** An action of the safe domain accepts a state exactly when every precondition that explains the
attempts holds in its discrete part and its values satisfy the safe numeric conditions. -/
theorem C108_safe {cfg : ONumCfg K} {add : Cond → Cond → Cond} {ord : LitOrd} (hadd : AddOK add) (ho : EnumNodup ord) {names : List String}
    {Ds : List (String × DiscreteOnline)} {Ns : List (String × ONum K)} {acts : List (String × OAction K)}
    (h : constructSafe cfg add ord names Ds Ns = .ok acts) {a : String} {A : OAction K} (hA : (a, A) ∈ acts) {x : Experience K} {num : ONum K}
    (ht : Taught cfg Ds Ns a x num) (ρ : String → String) (s : State) (v : String → K) :
    ∃ p, num.safeModel cfg = .ok p ∧ (Accepts A ρ s v ↔ (∀ T, PreConsistent x.voc x.attempts T → applicable T ρ s) ∧ ∀ q ∈ p.pre, q.holds v) := by
  obtain ⟨L, N, n, e1, e2, e3, rfl⟩ := buildOne_ok.mp ((build_ok.mp h).2 _ hA)
  rw [ht.disc] at e1
  rw [ht.numeric] at e2
  cases e1; cases e2
  refine ⟨n, e3, ?_⟩
  unfold Accepts buildAction
  dsimp only
  obtain ⟨ks, hk⟩ := safe_node hadd ord (learned x.voc x.attempts)
  have h1 : Cond.eval (fun l => holds s (ground ρ l)) (safeDiscrete add ord (learned x.voc x.attempts)).1 ↔
      ∀ T, PreConsistent x.voc x.attempts T → applicable T ρ s := by
    unfold safeDiscrete
    dsimp only
    rw [nodeOf_and hadd (val ρ s), ← C30_safe_exact ht.explained ρ s, ← (C30_safe_precondition (V := x.voc) (h := x.attempts)).2]
    simp only [ho.mem]
    rfl
  rw [hk] at h1
  rw [hk, ← h1]
  exact and_congr_left fun _ => rebuilt hadd ρ s ks

/-- **C108, order.** When the failures can be separated from the successes, every state accepted by an action of the safe domain
is accepted by the same action of the optimistic domain, the numeric effects are the same, and the safe discrete effects are among
the optimistic ones if an effect explains the attempts and some attempt succeeded. -/
theorem C108_order {cfg : ONumCfg K} {add : Cond → Cond → Cond} {ord : LitOrd} (hadd : AddOK add) (ho : EnumNodup ord) {names : List String}
    {Ds : List (String × DiscreteOnline)} {Ns : List (String × ONum K)} {acts oacts : List (String × OAction K)}
    (h : constructSafe cfg add ord names Ds Ns = .ok acts) (h' : constructOptimistic cfg add ord names Ds Ns = .ok oacts)
    {a : String} {A B : OAction K} (hA : (a, A) ∈ acts) (hB : (a, B) ∈ oacts) {x : Experience K} {num : ONum K}
    (ht : Taught cfg Ds Ns a x num) (H : FullHistory x.functions x.transitions) (hplain : cfg.plain = true)
    (S : IncSetup cfg.lib cfg.digits polyExp (createMonomials x.functions x.degree)
      (distinctRows (createMonomials x.functions x.degree) [] (successPoints x.functions x.degree x.transitions)))
    (P : SvmPrint cfg.svm cfg.digits polyExp (createMonomials x.functions x.degree) (labeledPoints x.functions x.degree x.transitions))
    (hc : SvmContract cfg.svm (createMonomials x.functions x.degree))
    (hsep : ∀ t ∈ x.transitions, t.ok = false → ∃ n b, Separates (createMonomials x.functions x.degree) (successPoints x.functions x.degree x.transitions)
      (frameRow (createMonomials x.functions x.degree) (valOf t.pre)) n b) :
    (∀ ρ s v, Accepts A ρ s v → Accepts B ρ s v) ∧ B.numEff = A.numEff ∧
    ∀ E, EffTrue x.voc x.attempts E → (∃ b ∈ x.attempts, b.ok = true ∧ (seen x.voc b.ρ b.after).Nonempty) → A.eff ⊆ B.eff := by
  refine ⟨fun ρ s v hacc => ?_, ?_, fun E hE hobs => ?_⟩
  · obtain ⟨p, hp, i1⟩ := C108_safe hadd ho h hA ht ρ s v
    obtain ⟨o, hoo, i2⟩ := C108_optimistic hadd ho h' hB ht ρ s v
    obtain ⟨g1, g2⟩ := i1.mp hacc
    obtain ⟨T, hT⟩ := ht.explained
    exact i2.mpr ⟨⟨T, hT, g1 T hT⟩, C79_safe_implies_optimistic H hplain ht.run S P hc hsep hp hoo g2⟩
  · obtain ⟨_, N, n, _, e2, e3, _, e4, _⟩ := (C108_actions.1 h).2 a A hA
    obtain ⟨_, N', n', _, f2, f3, _, f4, _⟩ := (C108_actions.2 h').2 a B hB
    rw [e2] at f2; cases f2
    rw [e4, f4]
    exact C79_same_effects e3 f3
  · obtain ⟨L, _, _, e1, _, _, _, _, e5⟩ := (C108_actions.1 h).2 a A hA
    obtain ⟨L', _, _, f1, _, _, _, _, f5⟩ := (C108_actions.2 h').2 a B hB
    rw [ht.disc] at e1 f1; cases e1; cases f1
    rw [e5, f5]
    exact fun l hl => C33_optimistic_effects hE hobs (C33_safe_effects hE hl)

/-- **C108, the true action is admitted.** When the failures can be separated from the successes, the optimistic domain accepts every
state in which a precondition that explains the attempts (such as the true one) holds and whose values are a convex combination of those of
the successes. -/
theorem C108_true_accepted {cfg : ONumCfg K} {add : Cond → Cond → Cond} {ord : LitOrd} (hadd : AddOK add) (ho : EnumNodup ord) {names : List String}
    {Ds : List (String × DiscreteOnline)} {Ns : List (String × ONum K)} {acts oacts : List (String × OAction K)}
    (h : constructSafe cfg add ord names Ds Ns = .ok acts) (h' : constructOptimistic cfg add ord names Ds Ns = .ok oacts)
    {a : String} {B : OAction K} (hB : (a, B) ∈ oacts) {x : Experience K} {num : ONum K}
    (ht : Taught cfg Ds Ns a x num) (H : FullHistory x.functions x.transitions) (hplain : cfg.plain = true)
    (S : IncSetup cfg.lib cfg.digits polyExp (createMonomials x.functions x.degree)
      (distinctRows (createMonomials x.functions x.degree) [] (successPoints x.functions x.degree x.transitions)))
    (P : SvmPrint cfg.svm cfg.digits polyExp (createMonomials x.functions x.degree) (labeledPoints x.functions x.degree x.transitions))
    (hc : SvmContract cfg.svm (createMonomials x.functions x.degree))
    (hsep : ∀ t ∈ x.transitions, t.ok = false → ∃ n b, Separates (createMonomials x.functions x.degree) (successPoints x.functions x.degree x.transitions)
      (frameRow (createMonomials x.functions x.degree) (valOf t.pre)) n b)
    {T : Finset Lit} (hT : PreConsistent x.voc x.attempts T) {ρ : String → String} {s : State} {v : String → K} (hs : applicable T ρ s)
    (hv : InHull (createMonomials x.functions x.degree) (successPoints x.functions x.degree x.transitions) (monoVal v)) : Accepts B ρ s v := by
  obtain ⟨o, hoo, i2⟩ := C108_optimistic hadd ho h' hB ht ρ s v
  have ha : a ∈ names := by
    rw [← (C108_actions.2 h').1]
    exact List.mem_map.mpr ⟨_, hB, rfl⟩
  rw [← (C108_actions.1 h).1] at ha
  obtain ⟨⟨a', A⟩, hA, rfl⟩ := List.mem_map.mp ha
  obtain ⟨p, hp, _⟩ := C108_safe hadd ho h hA ht ρ s v
  exact i2.mpr ⟨⟨T, hT, hs⟩, C79_safe_implies_optimistic H hplain ht.run S P hc hsep hp hoo ((C79_safe_precondition H hplain ht.run S hp v).mpr hv)⟩

end

/-! ### A concrete case -/
namespace Case
open OnlineCase

def ready : Lit := ⟨"ready", ["?o"], true⟩
def voc : Finset Lit := {ready, ready.neg}
def ρ : String → String := fun x => if x = "?o" then "car" else x
def on : State := {⟨"ready", ["car"]⟩}
/-- The car moved when it was ready and did not when it was not. -/
def attempts : List Attempt := [⟨ρ, on, on, true⟩, ⟨ρ, ∅, ∅, false⟩]

theorem explained : PreConsistent voc attempts {ready} := ⟨by decide +kernel, by decide +kernel⟩

def add : Cond → Cond → Cond
  | .node op ks, c => .node op (ks ++ [c])
  | .lit l, _ => .lit l

theorem addOK : AddOK add := by
  intro op ks c
  refine ⟨ks ++ [c], rfl, fun v _ => ?_⟩
  have h1 : ∀ l : List Cond, Cond.evalAll v (l ++ [c]) ↔ Cond.evalAll v l ∧ Cond.eval v c := by
    intro l
    induction l with
    | nil => simp [Cond.evalAll]
    | cons k l ih => simp [Cond.evalAll, ih, and_assoc]
  have h2 : ∀ l : List Cond, Cond.evalAny v (l ++ [c]) ↔ Cond.evalAny v l ∨ Cond.eval v c := by
    intro l
    induction l with
    | nil => simp [Cond.evalAny]
    | cons k l ih => simp [Cond.evalAny, ih, or_assoc]
  cases op with
  | and => exact h1 ks
  | or => exact h2 ks

noncomputable def ord : LitOrd := Finset.toList

theorem ordOK : EnumNodup ord := ⟨fun s x => Finset.mem_toList, fun s => s.nodup_toList⟩

noncomputable def num : ONum ℚ := (onumLearned cfg fs 0 history).1
noncomputable def Ds : List (String × DiscreteOnline) := [("move", learned voc attempts)]
noncomputable def Ns : List (String × ONum ℚ) := [("move", num)]
def x : Experience ℚ := ⟨voc, attempts, fs, 0, history⟩

theorem taught : Taught cfg Ds Ns "move" x num := ⟨rfl, rfl, run_eq, ⟨_, explained⟩⟩

/-- Both domains exist, and the theorems apply to the action: a ready car with 4 units of fuel is accepted by both. -/
example : ∃ A B, constructSafe cfg add ord ["move"] Ds Ns = .ok [("move", A)] ∧ constructOptimistic cfg add ord ["move"] Ds Ns = .ok [("move", B)] ∧
    Accepts A ρ on (fun _ => 4) ∧ Accepts B ρ on (fun _ => 4) := by
  obtain ⟨p, hp, hpre, _⟩ := safe
  obtain ⟨o, ho, _⟩ := optimistic
  have e1 : constructSafe cfg add ord ["move"] Ds Ns = .ok [("move", buildAction add (safeDiscrete add ord (learned voc attempts)) p)] :=
    build_ok.mpr ⟨rfl, fun q hq => by rw [List.mem_singleton.mp hq]; exact buildOne_ok.mpr ⟨_, _, p, rfl, rfl, hp, rfl⟩⟩
  have e2 : constructOptimistic cfg add ord ["move"] Ds Ns = .ok [("move", buildAction add ((learned voc attempts).optimisticModel add ord) o)] :=
    build_ok.mpr ⟨rfl, fun q hq => by rw [List.mem_singleton.mp hq]; exact buildOne_ok.mpr ⟨_, _, o, rfl, rfl, ho, rfl⟩⟩
  refine ⟨_, _, e1, e2, ?_⟩
  have hacc : Accepts (buildAction add (safeDiscrete add ord (learned voc attempts)) p) ρ on (fun _ => (4 : ℚ)) := by
    obtain ⟨p', hp', i⟩ := C108_safe addOK ordOK e1 (List.mem_singleton.mpr rfl) taught ρ on (fun _ => (4 : ℚ))
    have : p' = p := by
      have : (onumLearned cfg fs 0 history).1.safeModel cfg = .ok p' := hp'
      rw [hp] at this; cases this; rfl
    subst this
    refine i.mpr ⟨fun T hT l hl => ?_, ?_⟩
    · exact ((hT.2 ⟨ρ, on, on, true⟩ (by simp [x, attempts])).mp rfl) l hl
    · rw [hpre]
      simp only [List.mem_cons, List.not_mem_nil, or_false, forall_eq_or_imp, forall_eq]
      unfold NCond.holds
      simp only [NExp.eval]
      norm_num
  exact ⟨hacc, (C108_order addOK ordOK e1 e2 (List.mem_singleton.mpr rfl) (List.mem_singleton.mpr rfl) taught full rfl inc print
    (SvmCase.contractOn col) separable).1 ρ on _ hacc⟩

/-- An action whose effect is not affine in the observed fluents. -/
def odd : List (Transition ℚ) := [attempt 5 4 true, attempt 3 9 true, attempt 4 4 true]

/-- A regression that finds no exact solution, as none exists for these data. -/
def cfg0 : ONumCfg ℚ := ⟨lib, ⟨fun feats _ => ((feats.map fun _ => 0, 0), false)⟩, SvmCase.fitOn col, 4, 0, true⟩

theorem idle_ok : ∃ p, (onumLearned cfg0 fs 0 []).1.safeModel cfg0 = .ok p := by
  have h : (match (onumLearned cfg0 fs 0 []).1.safeModel cfg0 with
    | .ok _ => true
    | .error _ => false) = true := by decide +kernel
  revert h
  cases (onumLearned cfg0 fs 0 []).1.safeModel cfg0 with
  | ok p => intro _; exact ⟨p, rfl⟩
  | error e => intro h; exact absurd h (by simp)

theorem odd_fails : (onumLearned cfg0 fs 0 odd).1.safeModel cfg0 = .error (.notSafe .noSolutionFound) := by
  have h : (match (onumLearned cfg0 fs 0 odd).1.safeModel cfg0 with
    | .ok _ => false
    | .error e => decide (e = .notSafe .noSolutionFound)) = true := by decide +kernel
  revert h
  cases (onumLearned cfg0 fs 0 odd).1.safeModel cfg0 with
  | ok p => intro h; exact absurd h (by simp)
  | error e => intro h; rw [of_decide_eq_true h]

/-- Such an action beside another one: there is no safe domain. -/
example : constructSafe cfg0 add ord ["idle", "odd"] [("idle", learned voc []), ("odd", learned voc [])]
    [("idle", (onumLearned cfg0 fs 0 []).1), ("odd", (onumLearned cfg0 fs 0 odd).1)] = .error (.notSafe .noSolutionFound) := by
  refine ((C108_raises (num := fun a => if a = "idle" then (onumLearned cfg0 fs 0 []).1 else (onumLearned cfg0 fs 0 odd).1) ?_ ?_ _).1).mpr
    ⟨["idle"], "odd", [], rfl, ?_, odd_fails⟩
  · intro a ha
    simp only [List.mem_cons, List.not_mem_nil, or_false] at ha
    rcases ha with rfl | rfl
    · exact ⟨_, rfl⟩
    · exact ⟨_, rfl⟩
  · intro a ha
    simp only [List.mem_cons, List.not_mem_nil, or_false] at ha
    rcases ha with rfl | rfl <;> rfl
  · intro b hb
    rw [List.mem_singleton.mp hb]
    exact idle_ok

end Case
end OnlineDomain
end Props
