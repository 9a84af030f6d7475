import Verif.Spec.MacroPlans
import Verif.Lemmas.MacroSafe
import Verif.Model.MacroPlans

/-! Sequences of ground actions, and decoding plan files. -/
namespace Props
namespace MacroPlans
open Model Spec Spec.Plans Spec.MacroPlans

/-! ### Ground actions one after the other -/

/-- An atom as a literal. -/
theorem mem_succ (E : Finset Lit) (ρ : String → String) (s : State) (x : Atom) :
    x ∈ successor E ρ s ↔ (∃ l ∈ E.image (ground ρ), l.pos = true ∧ l.atom = x) ∨ (x ∈ s ∧ ∀ l ∈ E.image (ground ρ), l.pos = false → l.atom ≠ x) := by
  unfold successor
  simp only [Finset.mem_union, Finset.mem_sdiff, Finset.mem_image, Finset.mem_filter]
  constructor
  · rintro (⟨h1, h2⟩ | ⟨l, ⟨h1, h2⟩, h3⟩)
    · right
      refine ⟨h1, ?_⟩
      rintro l ⟨l', hl', rfl⟩ hp e
      exact h2 ⟨l', ⟨hl', hp⟩, e⟩
    · left; exact ⟨_, ⟨l, h1, rfl⟩, h2, h3⟩
  · rintro (⟨l, ⟨l', hl', rfl⟩, h2, h3⟩ | ⟨h1, h2⟩)
    · right; exact ⟨l', ⟨hl', h2⟩, h3⟩
    · left
      refine ⟨h1, ?_⟩
      rintro ⟨l, ⟨hl, hp⟩, e⟩
      exact h2 _ ⟨l, hl, rfl⟩ hp e

/-- Only the ground effects matter. -/
theorem succ_image (E : Finset Lit) (ρ : String → String) (s : State) : successor E ρ s = successor (E.image (ground ρ)) id s := by
  have hid : ∀ F : Finset Lit, F.image (ground id) = F := by
    intro F
    have : (ground id) = id := by funext l; simp [ground]
    rw [this, Finset.image_id]
  ext x
  rw [mem_succ, mem_succ, hid]

theorem mem_succ_id (E : Finset Lit) (s : State) (x : Atom) :
    x ∈ successor E id s ↔ (∃ l ∈ E, l.pos = true ∧ l.atom = x) ∨ (x ∈ s ∧ ∀ l ∈ E, l.pos = false → l.atom ≠ x) := by
  have : E.image (ground id) = E := by
    have : (ground id) = id := by funext l; simp [ground]
    rw [this, Finset.image_id]
  rw [mem_succ, this]

theorem atom_neg (l : Lit) : l.neg.atom = l.atom := rfl

theorem eq_of_atom {k l : Lit} (h : k.atom = l.atom) (hp : k.pos = l.pos) : k = l := by
  cases k; cases l
  simp only [Lit.atom, Prod.mk.injEq] at h
  simp_all

/-- Two sets of effects that do not contradict one another can be applied one after the other. -/
theorem succ_union {E F : Finset Lit} (h : NoConflict (E ∪ F)) (s : State) : successor F id (successor E id s) = successor (E ∪ F) id s := by
  ext x
  rw [mem_succ_id, mem_succ_id, mem_succ_id]
  have hc : ∀ k ∈ E, ∀ l ∈ F, k.pos = true → l.pos = false → k.atom ≠ l.atom := by
    intro k hk l hl hp hn e
    have : l = k.neg := eq_of_atom (by rw [atom_neg, e]) (by simp [Lit.neg, hp, hn])
    exact h k (by simp [hk]) (by rw [← this]; simp [hl])
  constructor
  · rintro (⟨l, hl, h1, h2⟩ | ⟨⟨l, hl, h1, h2⟩ | ⟨h1, h2⟩, h3⟩)
    · left; exact ⟨l, by simp [hl], h1, h2⟩
    · left; exact ⟨l, by simp [hl], h1, h2⟩
    · right
      refine ⟨h1, fun l hl hp => ?_⟩
      rcases Finset.mem_union.mp hl with hl | hl
      · exact h2 l hl hp
      · exact h3 l hl hp
  · rintro (⟨l, hl, h1, h2⟩ | ⟨h1, h2⟩)
    · rcases Finset.mem_union.mp hl with hl | hl
      · right
        refine ⟨Or.inl ⟨l, hl, h1, h2⟩, fun k hk hp => ?_⟩
        rw [← h2]; exact fun e => hc l hl k hk h1 hp e.symm
      · left; exact ⟨l, hl, h1, h2⟩
    · right
      exact ⟨Or.inr ⟨h1, fun l hl => h2 l (by simp [hl])⟩, fun l hl => h2 l (by simp [hl])⟩

/-- What holds afterwards. -/
theorem holds_succ {E : Finset Lit} (h : NoConflict E) (s : State) (g : Lit) :
    holds (successor E id s) g ↔ g ∈ E ∨ (holds s g ∧ g.neg ∉ E) := by
  unfold holds
  rw [mem_succ_id]
  have pos : ∀ l ∈ E, l.pos = true → l.atom = g.atom → if g.pos = true then g ∈ E else g.neg ∈ E := by
    intro l hl hp e
    by_cases hg : g.pos = true
    · rw [if_pos hg, ← eq_of_atom e (by rw [hp, hg])]; exact hl
    · rw [if_neg hg]
      have : l = g.neg := eq_of_atom e (by simp [Lit.neg, hp, hg])
      rw [← this]; exact hl
  have neg : ∀ l ∈ E, l.pos = false → l.atom = g.atom → if g.pos = true then g.neg ∈ E else g ∈ E := by
    intro l hl hp e
    by_cases hg : g.pos = true
    · rw [if_pos hg]
      have : l = g.neg := eq_of_atom e (by simp [Lit.neg, hp, hg])
      rw [← this]; exact hl
    · rw [if_neg hg, ← eq_of_atom e (by simp [hp, hg])]; exact hl
  by_cases hg : g.pos = true
  · simp only [hg, true_iff]
    constructor
    · rintro (⟨l, hl, hp, e⟩ | ⟨h1, h2⟩)
      · left; simpa [hg] using pos l hl hp e
      · right
        exact ⟨h1, fun hn => h2 _ hn (by simp [Lit.neg, hg]) (atom_neg g)⟩
    · rintro (h1 | ⟨h1, h2⟩)
      · left; exact ⟨g, h1, hg, rfl⟩
      · right
        refine ⟨h1, fun l hl hp e => h2 ?_⟩
        simpa [hg] using neg l hl hp e
  · have hg' : g.pos = false := by simpa using hg
    simp only [hg', Bool.false_eq_true, false_iff, not_or, not_and, not_forall]
    constructor
    · rintro ⟨h1, h2⟩
      by_cases hs : g.atom ∈ s
      · obtain ⟨l, hl, hp, e⟩ := h2 hs
        left
        have := neg l hl hp (not_not.mp e)
        simpa [hg'] using this
      · right
        exact ⟨hs, fun hn => h1 ⟨_, hn, by simp [Lit.neg, hg'], atom_neg g⟩⟩
    · rintro (h1 | ⟨h1, h2⟩)
      · refine ⟨?_, fun _ => ⟨g, h1, hg', by simp⟩⟩
        rintro ⟨l, hl, hp, e⟩
        have := pos l hl hp e
        rw [if_neg (by simp [hg'])] at this
        exact h g h1 this
      · refine ⟨?_, fun hs => absurd hs h1⟩
        rintro ⟨l, hl, hp, e⟩
        have := pos l hl hp e
        rw [if_neg (by simp [hg'])] at this
        exact h2 this

/-! ### The actions of a macro one after the other -/

section
variable {D : Domain} {truth : String → Schema}

theorem subst_map (names : List String) (f : String → String) {x : String} (hx : x ∈ names) : subst names (names.map f) x = f x := by
  unfold subst
  induction names with
  | nil => simp at hx
  | cons y ys ih =>
    rw [List.map_cons, List.zip_cons_cons, List.lookup_cons]
    by_cases e : x = y
    · subst e; simp
    · have : (x == y) = false := by simpa using e
      rw [this]
      exact ih (by simpa [e] using hx)

/-- A call of one action with the objects of `ρ` is applicable and changes the state as the ground action. -/
theorem real_step (hT : WFTruth D truth) (hc : D.consts = []) {a : String} (ha : a ∈ D.names) (ρ : String → String) (s s' : State) :
    (real D truth).step s ⟨a, (Sig.names (D.act a).sig).map ρ⟩ s' ↔
      applicable (truth a).pre ρ s ∧ s' = successor ((truth a).eff.image (ground ρ)) id s := by
  have hp := hT.params a ha
  have hg : ∀ l : Lit, TypedLit D.preds ((truth a).params ++ D.consts) l →
      ground (subst (Sig.names (truth a).params) ((Sig.names (D.act a).sig).map ρ)) l = ground ρ l := by
    intro l hl
    unfold ground
    congr 1
    refine List.map_congr_left fun x hx => ?_
    have := typed_sub hl x hx
    rw [hc, List.append_nil] at this
    rw [hp] at this ⊢
    exact subst_map _ _ this
  have hpre : applicable (truth a).pre (subst (Sig.names (truth a).params) ((Sig.names (D.act a).sig).map ρ)) s ↔ applicable (truth a).pre ρ s :=
    forall₂_congr fun l hl => by rw [hg l ((hT.wf a ha).pre l hl)]
  have heff : successor (truth a).eff (subst (Sig.names (truth a).params) ((Sig.names (D.act a).sig).map ρ)) s =
      successor ((truth a).eff.image (ground ρ)) id s := by
    rw [succ_image]
    congr 1
    exact Finset.image_congr fun l hl => hg l ((hT.wf a ha).eff l hl)
  unfold Strips.step Strips.binding real
  dsimp only
  rw [hpre, heff]
  constructor
  · rintro ⟨_, _, h3, _, h5⟩; exact ⟨h3, h5⟩
  · rintro ⟨h1, h2⟩
    exact ⟨ha, by simp [Sig.names, hp], h1, by intro p hp; simp at hp, h2⟩

theorem noConflict_sub {E F : Finset Lit} (h : NoConflict F) (hs : E ⊆ F) : NoConflict E := fun g hg hn => h g (hs hg) (hs hn)

theorem joint_cons (ρ : String → String → String) (a : String) (l : List String) :
    jointEffects truth (a :: l) ρ = (truth a).eff.image (ground (ρ a)) ∪ jointEffects truth l ρ := by
  unfold jointEffects
  rw [List.toFinset_cons, Finset.biUnion_insert]

theorem joint_perm {ρ : String → String → String} {l l' : List String} (h : l.Perm l') : jointEffects truth l ρ = jointEffects truth l' ρ := by
  unfold jointEffects
  rw [List.toFinset_eq_of_perm _ _ h]

/-- Applicable ground actions with consistent effects can be executed in an order exactly when none destroys a precondition of a later one;
the result is that of executing them at once. -/
theorem order_iff (hT : WFTruth D truth) (hc : D.consts = []) (ρ : String → String → String) (s s' : State) :
    ∀ (order : List String) (E : Finset Lit), (∀ a ∈ order, a ∈ D.names) → (∀ a ∈ order, applicable (truth a).pre (ρ a) s) →
      NoConflict (E ∪ jointEffects truth order ρ) →
      (Leads (real D truth).step (successor E id s) (order.map fun a => ⟨a, (Sig.names (D.act a).sig).map (ρ a)⟩) s' ↔
        s' = successor (E ∪ jointEffects truth order ρ) id s ∧ order.Pairwise (Harmless truth ρ) ∧
        ∀ b ∈ order, ∀ l ∈ (truth b).pre, (ground (ρ b) l).neg ∉ E) := by
  intro order
  induction order with
  | nil =>
    intro E _ _ _
    have : jointEffects truth [] ρ = ∅ := rfl
    rw [this, Finset.union_empty]
    simp only [List.map_nil, Leads, List.Pairwise.nil, List.not_mem_nil, false_imp_iff, implies_true, and_true]
    exact eq_comm
  | cons a rest ih =>
    intro E hn happ hcon
    rw [List.map_cons]
    have hunion : E ∪ jointEffects truth (a :: rest) ρ = (E ∪ (truth a).eff.image (ground (ρ a))) ∪ jointEffects truth rest ρ := by
      rw [joint_cons, Finset.union_assoc]
    have hE : NoConflict E := noConflict_sub hcon Finset.subset_union_left
    have hEa : NoConflict (E ∪ (truth a).eff.image (ground (ρ a))) := by
      rw [hunion] at hcon
      exact noConflict_sub hcon Finset.subset_union_left
    have hstep : ∀ m, (real D truth).step (successor E id s) ⟨a, (Sig.names (D.act a).sig).map (ρ a)⟩ m ↔
        (∀ l ∈ (truth a).pre, (ground (ρ a) l).neg ∉ E) ∧ m = successor (E ∪ (truth a).eff.image (ground (ρ a))) id s := by
      intro m
      rw [real_step hT hc (hn a (by simp)), succ_union hEa]
      refine and_congr_left fun _ => ?_
      refine forall₂_congr fun l hl => ?_
      rw [holds_succ hE]
      constructor
      · rintro (h | ⟨_, h⟩)
        · exact hE _ h
        · exact h
      · exact fun h => Or.inr ⟨happ a (by simp) l hl, h⟩
    have ih' := ih (E ∪ (truth a).eff.image (ground (ρ a))) (fun b hb => hn b (by simp [hb])) (fun b hb => happ b (by simp [hb]))
      (by rw [← hunion]; exact hcon)
    unfold Leads
    constructor
    · rintro ⟨m, h1, h2⟩
      obtain ⟨h3, rfl⟩ := (hstep m).mp h1
      obtain ⟨h4, h5, h6⟩ := ih'.mp h2
      refine ⟨by rw [h4, hunion], List.pairwise_cons.mpr ⟨fun b hb => ?_, h5⟩, ?_⟩
      · intro e he l hl heq
        exact h6 b hb l hl (Finset.mem_union_right _ (Finset.mem_image.mpr ⟨e, he, heq⟩))
      · intro b hb l hl
        rcases List.mem_cons.mp hb with rfl | hb
        · exact h3 l hl
        · exact fun h => h6 b hb l hl (Finset.mem_union_left _ h)
    · rintro ⟨h1, h2, h3⟩
      rw [List.pairwise_cons] at h2
      refine ⟨_, (hstep _).mpr ⟨h3 a (by simp), rfl⟩, ih'.mpr ⟨by rw [h1, hunion], h2.2, fun b hb l hl h => ?_⟩⟩
      rcases Finset.mem_union.mp h with h | h
      · exact h3 b (by simp [hb]) l hl h
      · obtain ⟨e, he, heq⟩ := Finset.mem_image.mp h
        exact h2.1 b hb e he l hl heq

theorem succ_empty (s : State) : successor ∅ id s = s := by
  ext x; rw [mem_succ_id]; simp

theorem leads_append {S A : Type} {step : S → A → S → Prop} : ∀ {l l' : List A} {s m s' : S}, Leads step s l m → Leads step m l' s' → Leads step s (l ++ l') s'
  | [], _, _, _, _, h, h' => by cases h; exact h'
  | _ :: _, _, _, _, _, ⟨m, h1, h2⟩, h' => ⟨m, h1, leads_append h2 h'⟩

end

/-! ### The text of a plan -/

theorem tokenize_space {c : Char} (hc : (c.isWhitespace || c == '(' || c == ')') = true) : ∀ (w cur : List Char), tokenize cur (w ++ [c]) = tokenize cur w := by
  intro w
  induction w with
  | nil =>
    intro cur
    simp only [List.nil_append, tokenize, hc, if_true]
  | cons d w ih =>
    intro cur
    rw [List.cons_append, tokenize, tokenize]
    simp only [ih]

theorem tokenize_line {c : Call} (hn : Token c.name) (ha : ∀ x ∈ c.params, Token x) :
    (tokenize [] (planLine c).toList).map String.ofList = c.name :: c.params := by
  have : (planLine c).toList = (showCall c.name c.params).toList ++ ['\n'] := by
    unfold planLine
    rw [String.toList_append]
    rfl
  rw [this, tokenize_space (by decide), tokenize_showCall hn ha]

theorem showCall_injective {a b : String} {xs ys : List String} (ha : Token a) (hb : Token b) (hxs : ∀ x ∈ xs, Token x) (hys : ∀ x ∈ ys, Token x)
    (h : showCall a xs = showCall b ys) : a = b ∧ xs = ys := by
  have h1 := tokenize_showCall ha hxs
  rw [h, tokenize_showCall hb hys] at h1
  simp only [List.cons.injEq] at h1
  exact ⟨h1.1.symm, h1.2.symm⟩

theorem endsLine_line (c : Call) : endsLine (planLine c) = true := by
  unfold endsLine planLine
  rw [String.toList_append]
  have : ("\n" : String).toList = ['\n'] := rfl
  rw [this, List.getLast?_append]
  rfl

theorem endsLine_call (c : Call) : endsLine (showCall c.name c.params) = false := by
  unfold endsLine showCall
  rw [String.toList_ofList, ← List.append_assoc, ← List.cons_append, List.getLast?_append]
  rfl

end MacroPlans
end Props
