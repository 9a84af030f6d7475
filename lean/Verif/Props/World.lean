import Verif.Lemmas.SamSafe

/-! A concrete, non-trivial learning problem used to show that the hypotheses of the theorems can be
met: objects move between places and are painted. -/
namespace World
open Model Spec

def tObj : PType := ⟨"obj", ["object"]⟩
def tLoc : PType := ⟨"loc", ["object"]⟩

def preds : List PredDecl :=
  [⟨"at", [("?o", tObj), ("?l", tLoc)]⟩, ⟨"painted", [("?o", tObj)]⟩, ⟨"power", []⟩]

def moveSig : Sig := [("?o", tObj), ("?x", tLoc), ("?y", tLoc)]
def paintSig : Sig := [("?o", tObj)]

/-- The partial domain: two actions, no constants. -/
def D : Domain :=
  { preds := preds, consts := [], names := ["move", "paint"],
    act := fun a => if a = "move" then .fresh moveSig else .fresh paintSig }

/-- The true actions. -/
def truth : String → Schema := fun a =>
  if a = "move" then
    { params := moveSig, pre := {⟨"at", ["?o", "?x"], true⟩, ⟨"power", [], true⟩},
      eff := {⟨"at", ["?o", "?y"], true⟩, ⟨"at", ["?o", "?x"], false⟩} }
  else
    { params := paintSig, pre := {⟨"painted", ["?o"], false⟩}, eff := {⟨"painted", ["?o"], true⟩} }

def s0 : State := {⟨"at", ["b", "l1"]⟩, ⟨"power", []⟩}
def s1 : State := {⟨"at", ["b", "l2"]⟩, ⟨"power", []⟩}
def s2 : State := {⟨"at", ["b", "l1"]⟩, ⟨"power", []⟩, ⟨"painted", ["b"]⟩}
def s3 : State := {⟨"at", ["b", "l3"]⟩, ⟨"power", []⟩, ⟨"painted", ["b"]⟩}

def c1 : Component := ⟨s0, ⟨"move", ["b", "l1", "l2"]⟩, s1, true⟩
def c2 : Component := ⟨s2, ⟨"move", ["b", "l1", "l3"]⟩, s3, true⟩
/-- A failed attempt, ignored by the learner. -/
def c3 : Component := ⟨s0, ⟨"paint", ["zzz"]⟩, s0, false⟩

def obs : List (List Component) := [[c1, c3], [c2]]

theorem wfD : WFDomain D where
  names := by decide
  sigs := by intro a ha; simp only [D, List.mem_cons, List.not_mem_nil, or_false] at ha; rcases ha with rfl | rfl <;> decide
  empty := by
    intro a ha; simp only [D, List.mem_cons, List.not_mem_nil, or_false] at ha
    rcases ha with rfl | rfl <;> exact ⟨rfl, rfl, rfl⟩

theorem typed_at {x : String} (p : Bool) (hx : (x, tLoc) ∈ moveSig) (hne : "?o" ≠ x) :
    TypedLit preds (moveSig ++ []) ⟨"at", ["?o", x], p⟩ :=
  ⟨by simpa using hne, ⟨_, List.mem_cons_self, rfl,
    .cons ⟨tObj, by decide, by decide⟩ (.cons ⟨tLoc, by simpa using hx, by decide⟩ .nil)⟩⟩

theorem typed_power : TypedLit preds (moveSig ++ []) ⟨"power", [], true⟩ :=
  ⟨by simp, ⟨⟨"power", []⟩, by decide, rfl, .nil⟩⟩

theorem typed_painted (p : Bool) : TypedLit preds (paintSig ++ []) ⟨"painted", ["?o"], p⟩ :=
  ⟨by simp, ⟨⟨"painted", [("?o", tObj)]⟩, by decide, rfl, .cons ⟨tObj, by decide, by decide⟩ .nil⟩⟩

theorem wfT : WFTruth D truth where
  params := by
    intro a ha; simp only [D, List.mem_cons, List.not_mem_nil, or_false] at ha
    rcases ha with rfl | rfl <;> rfl
  wf := by
    intro a ha; simp only [D, List.mem_cons, List.not_mem_nil, or_false] at ha
    rcases ha with rfl | rfl
    · refine ⟨?_, ?_, by decide⟩
      · intro l hl
        have : l = ⟨"at", ["?o", "?x"], true⟩ ∨ l = ⟨"power", [], true⟩ := by simpa [truth] using hl
        rcases this with rfl | rfl
        · exact typed_at true (by decide) (by decide)
        · exact typed_power
      · intro l hl
        have : l = ⟨"at", ["?o", "?y"], true⟩ ∨ l = ⟨"at", ["?o", "?x"], false⟩ := by simpa [truth] using hl
        rcases this with rfl | rfl
        · exact typed_at true (by decide) (by decide)
        · exact typed_at false (by decide) (by decide)
    · refine ⟨?_, ?_, by decide⟩
      · intro l hl
        have : l = ⟨"painted", ["?o"], false⟩ := by simpa [truth] using hl
        subst this; exact typed_painted false
      · intro l hl
        have : l = ⟨"painted", ["?o"], true⟩ := by simpa [truth] using hl
        subst this; exact typed_painted true

theorem good : GoodData D truth obs where
  explained := by
    intro c hc hs
    simp only [obs, List.flatten_cons, List.flatten_nil, List.cons_append, List.nil_append, List.append_nil,
      List.mem_cons, List.not_mem_nil, or_false] at hc
    rcases hc with rfl | rfl | rfl
    · exact ⟨rfl, by decide, by decide⟩
    · simp [c3] at hs
    · exact ⟨rfl, by decide, by decide⟩
  noConst := by intro c _ _ _ o _; simp [D, Sig.names]

/-- The learner accepts this data. -/
theorem learns (p : Policy) (i : Bool) : ∃ r, (Learner.init D p i).learn obs = .ok r := by
  rw [learn_ok_iff (by exact wfD.names) (by
    intro q hq; simp only [Learner.init, List.mem_map] at hq; obtain ⟨a, ha, rfl⟩ := hq; exact ha)]
  intro c hc _
  simp only [obs, List.flatten_cons, List.flatten_nil, List.cons_append, List.nil_append, List.append_nil,
      List.mem_cons, List.not_mem_nil, or_false] at hc
  change c.call.name ∈ D.names
  rcases hc with rfl | rfl | rfl <;> decide

end World
