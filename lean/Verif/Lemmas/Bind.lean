import Verif.Spec.Strips
import Mathlib.Data.List.Nodup

/-! Facts about the substitution `Spec.subst`. -/
namespace Spec

variable {params call : List String}

theorem lookup_zip_of_mem (hp : params.Nodup) {x o : String} (h : (x, o) ∈ params.zip call) :
    (params.zip call).lookup x = some o := by
  induction params generalizing call with
  | nil => simp at h
  | cons p ps ih =>
    cases call with
    | nil => simp at h
    | cons c cs =>
      rw [List.nodup_cons] at hp
      simp only [List.zip_cons_cons, List.mem_cons, Prod.mk.injEq] at h
      simp only [List.zip_cons_cons, List.lookup_cons]
      rcases h with ⟨rfl, rfl⟩ | h
      · simp
      · have hx : x ≠ p := by rintro rfl; exact hp.1 (List.of_mem_zip h).1
        rw [beq_eq_false_iff_ne.mpr hx]
        exact ih hp.2 h

theorem lookup_zip_none {x : String} (h : x ∉ params) : (params.zip call).lookup x = none := by
  rw [List.lookup_eq_none_iff]
  intro p hp
  have := (List.of_mem_zip (a := p.1) (b := p.2) hp).1
  rw [bne_iff_ne]
  rintro rfl; exact h this

theorem bind_of_mem_zip (hp : params.Nodup) {x o : String} (h : (x, o) ∈ params.zip call) :
    subst params call x = o := by simp [subst, lookup_zip_of_mem hp h]

theorem bind_of_not_mem {x : String} (h : x ∉ params) : subst params call x = x := by
  simp [subst, lookup_zip_none h]

theorem exists_zip (hlen : call.length = params.length) {x : String} (h : x ∈ params) :
    ∃ o, (x, o) ∈ params.zip call := by
  obtain ⟨i, hi, rfl⟩ := List.getElem_of_mem h
  refine ⟨call[i]'(by omega), ?_⟩
  rw [List.mem_iff_getElem]
  exact ⟨i, by simp; omega, by simp⟩

theorem mem_zip_bind (hp : params.Nodup) (hlen : call.length = params.length) {x : String}
    (h : x ∈ params) : (x, subst params call x) ∈ params.zip call := by
  obtain ⟨o, ho⟩ := exists_zip hlen h
  rwa [bind_of_mem_zip hp ho]

theorem bind_mem_call (hp : params.Nodup) (hlen : call.length = params.length) {x : String}
    (h : x ∈ params) : subst params call x ∈ call := (List.of_mem_zip (mem_zip_bind hp hlen h)).2

theorem exists_param (hp : params.Nodup) (hlen : call.length = params.length) {o : String} (h : o ∈ call) :
    ∃ x ∈ params, subst params call x = o := by
  obtain ⟨i, hi, rfl⟩ := List.getElem_of_mem h
  have hz : (params[i]'(by omega), call[i]) ∈ params.zip call := by
    rw [List.mem_iff_getElem]; exact ⟨i, by simp; omega, by simp⟩
  exact ⟨_, List.getElem_mem _, bind_of_mem_zip hp hz⟩

theorem map_bind (hp : params.Nodup) (hlen : call.length = params.length) :
    params.map (subst params call) = call := by
  apply List.ext_getElem
  · simp [hlen]
  · intro i h1 h2
    have hz : (params[i]'(by simpa using h1), call[i]) ∈ params.zip call := by
      rw [List.mem_iff_getElem]; exact ⟨i, by simp at h1 ⊢; omega, by simp⟩
    simpa using bind_of_mem_zip hp hz

theorem bind_inj_params (hp : params.Nodup) (hlen : call.length = params.length) (hc : call.Nodup)
    {x y : String} (hx : x ∈ params) (hy : y ∈ params) (h : subst params call x = subst params call y) :
    x = y := by
  have : (params.map (subst params call)).Nodup := by rw [map_bind hp hlen]; exact hc
  exact List.inj_on_of_nodup_map this hx hy h

/-- The substitution is injective on parameters and constants when the call repeats no object and
binds no parameter to a constant. -/
theorem bind_inj {consts : List String} (hp : params.Nodup) (hlen : call.length = params.length) (hc : call.Nodup)
    (hdc : ∀ o ∈ call, o ∉ consts) {x y : String}
    (hx : x ∈ params ∨ x ∈ consts) (hy : y ∈ params ∨ y ∈ consts)
    (h : subst params call x = subst params call y) : x = y := by
  by_cases hx' : x ∈ params <;> by_cases hy' : y ∈ params
  · exact bind_inj_params hp hlen hc hx' hy' h
  · rw [bind_of_not_mem hy'] at h
    have := bind_mem_call hp hlen hx'
    rw [h] at this
    exact absurd (hy.resolve_left hy') (hdc _ this)
  · rw [bind_of_not_mem hx'] at h
    have := bind_mem_call hp hlen hy'
    rw [← h] at this
    exact absurd (hx.resolve_left hx') (hdc _ this)
  · rwa [bind_of_not_mem hx', bind_of_not_mem hy'] at h

@[simp] theorem ground_name (ρ : String → String) (l : Lit) : (ground ρ l).name = l.name := rfl
@[simp] theorem ground_pos (ρ : String → String) (l : Lit) : (ground ρ l).pos = l.pos := rfl
@[simp] theorem ground_args (ρ : String → String) (l : Lit) : (ground ρ l).args = l.args.map ρ := rfl
theorem ground_neg (ρ : String → String) (l : Lit) : ground ρ l.neg = (ground ρ l).neg := rfl

theorem map_inj_on {f : String → String} {S : String → Prop} (hf : ∀ x y, S x → S y → f x = f y → x = y)
    {as bs : List String} (ha : ∀ x ∈ as, S x) (hb : ∀ x ∈ bs, S x) (h : as.map f = bs.map f) : as = bs := by
  induction as generalizing bs with
  | nil => cases bs <;> simp_all
  | cons a as ih =>
    cases bs with
    | nil => simp at h
    | cons b bs =>
      simp only [List.map_cons, List.cons.injEq] at h
      rw [hf a b (ha a (by simp)) (hb b (by simp)) h.1,
        ih (fun x hx => ha x (by simp [hx])) (fun x hx => hb x (by simp [hx])) h.2]

end Spec
