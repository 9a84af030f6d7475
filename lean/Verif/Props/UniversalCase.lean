import Verif.Props.Universal

/-! C80-C84: a problem that meets the hypotheses, and problems in which the conclusions fail without them. -/
namespace Props.UniCase
open Model Spec

/-! ### Flooding a room wets the balls in it -/

def ball : PType := ⟨"ball", ["object"]⟩
def room : PType := ⟨"room", ["object"]⟩
def wet (x : String) (b := true) : Lit := ⟨"wet", [x], b⟩
def isin (x r : String) (b := true) : Lit := ⟨"in", [x, r], b⟩
def D : Domain :=
  { preds := [⟨"wet", [("?b", ball)]⟩, ⟨"in", [("?b", ball), ("?r", room)]⟩], consts := [], names := ["flood"],
    act := fun _ => .fresh [("?r", room)] }
def types : List PType := [ball, room]
def truth : String → UniSchema := fun _ =>
  ⟨[("?r", room)], ∅, [], [⟨"?x", ball, [⟨{isin "?x" "?r"}, {wet "?x"}⟩]⟩]⟩
def objs : Sig := [("b1", ball), ("b2", ball), ("r1", room), ("r2", room)]
def st (s : List (String × List String)) : State := (s.map fun p => (⟨p.1, p.2⟩ : Atom)).toFinset
def step (s : State) (r : String) : Component := ⟨s, ⟨"flood", [r]⟩, (truth "flood").next objs (subst ["?r"] [r]) s, true⟩
def comps : List Component :=
  [step (st [("in", ["b1", "r1"])]) "r1", step (st [("in", ["b1", "r1"])]) "r2",
    step (st [("in", ["b1", "r1"]), ("wet", ["b1"])]) "r2", step (st [("in", ["b1", "r1"]), ("wet", ["b1"])]) "r1"]
def obs : List UniObs := [(objs, comps)]
def lits : List Lit :=
  ["b1", "b2", "?b", "?x"].flatMap fun x => [wet x, wet x false] ++ ["r1", "r2", "?r"].flatMap fun r => [isin x r, isin x r false]
noncomputable def ord : LitOrd := enumOf lits
def umap : List (String × List String) := [("flood", ["ball"])]
noncomputable def run : UniLearner := runUni plainAdd false ord (UniLearner.init D types umap 1) obs

theorem ok : UniProblemOK D 1 types truth obs := by decide +kernel
theorem ordOK : EnumNodup ord := enumOf_nodup (by decide)

/-- C80: it returns. -/
theorem returned : ∃ rep, (UniLearner.init D types umap 1).learn plainAdd false ord obs = .ok (run, rep) :=
  runUni_eq (by decide +kernel)

/-- C80: the hypotheses of `C80_real_data_returns` are met. -/
example : ∃ r, (UniLearner.init D types umap 1).learn plainAdd false ord obs = .ok r :=
  C80_real_data_returns plainAdd_ok ordOK ok.sound.1 false .noRemove ok.sound.2.1 ok.sound.2.2
    (by
      intro ob hob c hc
      have : ∀ ob ∈ obs, ∀ c ∈ ob.2, c.call.name = "flood" := by decide +kernel
      rw [this ob hob c hc]
      exact ⟨by decide, ["ball"], by decide, by decide⟩)

/-- C80: a room that is swapped for another (two objects outside the call) is not a transition that can be learned from. -/
example : ∃ e, (UniLearner.init D types [("flood", ["ball", "room"])] 1).learn plainAdd false ord
    [([("b1", ball), ("r1", room), ("r2", room)], [⟨st [], ⟨"flood", ["r1"]⟩, st [("in", ["b1", "r2"])], true⟩])] = .error e := by
  have h : returns plainAdd false ord (UniLearner.init D types [("flood", ["ball", "room"])] 1)
    [([("b1", ball), ("r1", room), ("r2", room)], [⟨st [], ⟨"flood", ["r1"]⟩, st [("in", ["b1", "r2"])], true⟩])] = false := by decide +kernel
  unfold returns at h
  split at h
  · simp at h
  · rename_i e he; exact ⟨e, he⟩

/-- C82: the effect is learned. -/
theorem learned : ((run.action "flood").foralls.map fun u => (u.var, u.type, u.effs)) =
    [("?b", ball, [⟨{isin "?b" "?r"}, {wet "?b"}⟩])] ∧ (run.action "flood").pres.length = 0 ∧ (run.action "flood").core.pre = ∅ ∧
    "flood" ∈ run.base.base.dom.names := by
  decide +kernel

theorem unambiguous : ∀ l, ¬ Ambiguous D (allComps obs) "flood" 1 l := by
  intro l hl
  have h1 := (notAmbiguous ordOK (ok.sound.1.sigs "flood" (by decide)) hl).1
  have : liftedVocab D (D.act "flood").sig = ∅ := by decide +kernel
  rw [this] at h1
  simp at h1

/-- C83, C84: the hypotheses are met, in a world with an unseen ball and an unseen room, and the next state is the true one: exactly the balls in
the room become wet. -/
def objs2 : Sig := [("c1", ball), ("c2", ball), ("c3", ball), ("k1", room), ("k2", room)]
def s2 : State := st [("in", ["c1", "k1"]), ("in", ["c2", "k1"]), ("in", ["c3", "k2"])]
def ρ2 : String → String := subst ["?r"] ["k1"]

theorem exact_case : (run.action "flood").next objs2 ρ2 s2 = (truth "flood").next objs2 ρ2 s2 := by
  obtain ⟨rep, h⟩ := returned
  refine C84_exact_partial plainAdd_ok ordOK ok.sound.1 ok.sound.2.1 ok.sound.2.2 h learned.2.2.2
    ⟨by decide, by decide +kernel, by decide +kernel⟩ ?_ (Nat.le_refl 1) unambiguous (Or.inl rfl) ?_ ?_ ?_ ?_
  · decide +kernel
  · intro e he; revert e; decide +kernel
  · intro T hT e he l hl _
    left
    have : ∀ T ∈ types, ∀ e ∈ ((truth "flood").withObject (addVar D "flood" T) T).effs, ∀ l ∈ e.res,
        Became (extend D "flood" (addVar D "flood" T) T) (withObjects "flood" T obs) "flood" l := by
      unfold Became
      decide +kernel
    exact this T hT e he l hl
  · intro u hu o hoo hs
    right
    revert u o
    decide +kernel
  · decide +kernel

example : (truth "flood").next objs2 ρ2 s2 = s2 ∪ st [("wet", ["c1"]), ("wet", ["c2"])] ∧
    (run.action "flood").accepts objs2 ρ2 s2 := by decide +kernel

/-- C83: the hypotheses are met, also where the state has no wet ball. -/
example : (run.action "flood").makes objs2 ρ2 s2 ⊆ (truth "flood").makes objs2 ρ2 s2 := by
  obtain ⟨rep, h⟩ := returned
  exact C83_no_spurious_effect_unambiguous plainAdd_ok ordOK ok.sound.1 ok.sound.2.1 ok.sound.2.2 h learned.2.2.2
    ⟨by decide, by decide +kernel, by decide +kernel⟩ (by decide +kernel) unambiguous (by decide +kernel)

/-! ### Without the hypotheses -/

def l1 (q x : String) (b := true) : Lit := ⟨q, [x], b⟩
def l0 (q : String) (b := true) : Lit := ⟨q, [], b⟩
def one : Sig := [("b1", ball)]

/-- An action without parameters; propositions `p0`, properties `p1` of balls. -/
def propsDom (p0 p1 : List String) : Domain :=
  { preds := p0.map (fun q => ⟨q, []⟩) ++ p1.map (fun q => ⟨q, [("?b", ball)]⟩), consts := [], names := ["go"], act := fun _ => .fresh [] }
def propsTruth (effs foralls : List CondEff) : String → UniSchema := fun _ => ⟨[], ∅, effs, [⟨"?x", ball, foralls⟩]⟩
def propsObs (effs foralls : List CondEff) (ss : List State) : List UniObs :=
  [(one, ss.map fun s => ⟨s, ⟨"go", []⟩, (propsTruth effs foralls "go").next one id s, true⟩)]
noncomputable def propsOrd (p0 p1 : List String) : LitOrd :=
  enumOf (p0.flatMap (fun q => [l0 q, l0 q false]) ++ p1.flatMap fun q => ["b1", "?b", "?x"].flatMap fun x => [l1 q x, l1 q x false])
noncomputable def propsRun (deep : Bool) (p0 p1 : List String) (effs foralls : List CondEff) (ss : List State) (ts : List String) : UniLearner :=
  runUni plainAdd deep (propsOrd p0 p1) (UniLearner.init (propsDom p0 p1) [ball] [("go", ts)] 1) (propsObs effs foralls ss)

def onWet : List CondEff := [⟨{l0 "on"}, {l1 "wet" "?x"}⟩]
def onR : List CondEff := [⟨{l0 "on"}, {l0 "r"}⟩]
def wetStates : List State := [st [("on", []), ("dim", [])], st [], st [("dim", []), ("r", []), ("wet", ["b1"])]]

/-- **C83 needs its condition on nested literals.** The true action makes every ball wet (and `r` true) when `on` holds. After three real
transitions, in the second of which nothing changed, the returned action is applicable in the state before that transition and makes the
ball wet: literals nested in a disjunction added to the precondition were taken for preconditions, and removed from the antecedent. -/
theorem C83_needs_condition :
    UniProblemOK (propsDom ["on", "dim", "r"] ["wet"]) 1 [ball] (propsTruth onR onWet) (propsObs onR onWet wetStates) ∧
    returns plainAdd false (propsOrd ["on", "dim", "r"] ["wet"]) (UniLearner.init (propsDom ["on", "dim", "r"] ["wet"]) [ball] [("go", ["ball"])] 1)
      (propsObs onR onWet wetStates) = true ∧
    ((propsRun false ["on", "dim", "r"] ["wet"] onR onWet wetStates ["ball"]).action "go").accepts one id (st []) ∧
    l1 "wet" "b1" ∈ ((propsRun false ["on", "dim", "r"] ["wet"] onR onWet wetStates ["ball"]).action "go").makes one id (st []) ∧
    (propsTruth onR onWet "go").makes one id (st []) = ∅ := by
  decide +kernel

def pxqy : List CondEff := [⟨{l1 "p" "?x"}, {l1 "x" "?x"}⟩, ⟨{l1 "q" "?x"}, {l1 "y" "?x"}⟩]
def pxqyStates : List State := [st [("x", ["b1"]), ("y", ["b1"]), ("p", ["b1"]), ("q", ["b1"])], st []]

/-- **C84 needs restriction (2).** With several universal preconditions, those after the first come out empty: the returned action is
applicable in a state in which it misses an effect. No literal over the parameters is ambiguous; each true result was never undone; the type
is learned. -/
theorem C84_needs_one_precondition :
    UniProblemOK (propsDom [] ["x", "y", "p", "q"]) 1 [ball] (propsTruth [] pxqy) (propsObs [] pxqy pxqyStates) ∧
    returns plainAdd true (propsOrd [] ["x", "y", "p", "q"]) (UniLearner.init (propsDom [] ["x", "y", "p", "q"]) [ball] [("go", ["ball"])] 1)
      (propsObs [] pxqy pxqyStates) = true ∧
    ((propsRun true [] ["x", "y", "p", "q"] [] pxqy pxqyStates ["ball"]).action "go").accepts one id (st [("x", ["b1"]), ("q", ["b1"])]) ∧
    ((propsRun true [] ["x", "y", "p", "q"] [] pxqy pxqyStates ["ball"]).action "go").next one id (st [("x", ["b1"]), ("q", ["b1"])]) ≠
      (propsTruth [] pxqy "go").next one id (st [("x", ["b1"]), ("q", ["b1"])]) := by
  decide +kernel

/-- C84: a universal precondition that was added, so `C84_added_preconditions` speaks of something. -/
example : (((propsRun false [] ["x", "y", "p", "q"] [] pxqy pxqyStates ["ball"]).action "go").pres.map fun q => (q.1, q.2.1)) =
    List.replicate 8 ("?b", ball) := by decide +kernel

/-- ... with iteration that does not descend into universal preconditions, the same state is rejected. -/
example : ¬ ((propsRun false [] ["x", "y", "p", "q"] [] pxqy pxqyStates ["ball"]).action "go").accepts one id (st [("x", ["b1"]), ("q", ["b1"])]) := by
  decide +kernel

/-- **C84 needs restriction (4).** With an empty list of types for the action, an observed universal effect is dropped without a trace: the
returned action is applicable in the observed state and leads elsewhere. -/
theorem C84_needs_listed_type :
    UniProblemOK (propsDom [] ["x", "p"]) 1 [ball] (propsTruth [] [⟨{l1 "p" "?x"}, {l1 "x" "?x"}⟩])
      (propsObs [] [⟨{l1 "p" "?x"}, {l1 "x" "?x"}⟩] [st [("p", ["b1"])], st []]) ∧
    returns plainAdd false (propsOrd [] ["x", "p"]) (UniLearner.init (propsDom [] ["x", "p"]) [ball] [("go", [])] 1)
      (propsObs [] [⟨{l1 "p" "?x"}, {l1 "x" "?x"}⟩] [st [("p", ["b1"])], st []]) = true ∧
    ((propsRun false [] ["x", "p"] [] [⟨{l1 "p" "?x"}, {l1 "x" "?x"}⟩] [st [("p", ["b1"])], st []] []).action "go").accepts one id
      (st [("p", ["b1"])]) ∧
    ((propsRun false [] ["x", "p"] [] [⟨{l1 "p" "?x"}, {l1 "x" "?x"}⟩] [st [("p", ["b1"])], st []] []).action "go").next one id
      (st [("p", ["b1"])]) ≠ (propsTruth [] [⟨{l1 "p" "?x"}, {l1 "x" "?x"}⟩] "go").next one id (st [("p", ["b1"])]) := by
  decide +kernel

end Props.UniCase
