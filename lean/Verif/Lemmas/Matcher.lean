import Verif.Model.Core
import Verif.Lemmas.Bind

namespace Py
variable {α : Type}

theorem picks_nodup {xs : List α} (h : xs.Nodup) : (picks xs).Nodup ∧ ∀ p ∈ picks xs, ∀ q ∈ picks xs, p.1 = q.1 → p = q := by
  induction xs with
  | nil => simp [picks]
  | cons x xs ih =>
    rw [List.nodup_cons] at h
    obtain ⟨h1, h2⟩ := ih h.2
    have hinj : Function.Injective (fun p : α × List α => (p.1, x :: p.2)) := by
      rintro ⟨a, b⟩ ⟨c, d⟩ e; simp at e; simp [e]
    have hmem : ∀ p ∈ picks xs, p.1 ≠ x := by
      intro p hp e; exact h.1 (e ▸ (picks_perm hp).mem_iff.mpr (by simp))
    constructor
    · rw [picks, List.nodup_cons]
      refine ⟨?_, h1.map hinj⟩
      intro hm
      obtain ⟨p, hp, e⟩ := List.mem_map.mp hm
      exact hmem p hp (by simp at e; exact e.1)
    · intro p hp q hq e
      simp only [picks, List.mem_cons, List.mem_map] at hp hq
      rcases hp with rfl | ⟨p', hp', rfl⟩ <;> rcases hq with rfl | ⟨q', hq', rfl⟩
      · rfl
      · exact absurd e.symm (hmem q' hq')
      · exact absurd e (hmem p' hp')
      · rw [h2 p' hp' q' hq' e]

theorem perms_nodup {r : Nat} {xs : List α} (h : xs.Nodup) : (perms r xs).Nodup := by
  induction r generalizing xs with
  | zero => simp [perms]
  | succ r ih =>
    rw [perms, List.nodup_flatMap]
    obtain ⟨h1, h2⟩ := picks_nodup h
    refine ⟨fun p hp => ?_, ?_⟩
    · have : p.2.Nodup := by
        have := (picks_perm hp).nodup_iff.mp h
        exact (List.nodup_cons.mp this).2
      exact (ih this).map (fun a b e => by simpa using e)
    · refine List.Pairwise.imp_of_mem ?_ h1
      intro p q hp hq hne l hl1 hl2
      obtain ⟨a, _, rfl⟩ := List.mem_map.mp hl1
      obtain ⟨b, _, e⟩ := List.mem_map.mp hl2
      simp at e
      exact hne (h2 p hp q hq e.1.symm)

end Py

namespace Model
open Spec

theorem containsDuplicates_iff {l : List String} : containsDuplicates l = true ↔ ¬ l.Nodup := by
  unfold containsDuplicates
  rw [decide_eq_true_iff, ne_eq, not_iff_not]
  constructor
  · intro h
    rw [List.card_toFinset] at h
    exact List.dedup_eq_self.mp ((List.dedup_sublist l).eq_of_length h)
  · exact List.toFinset_card_of_nodup

theorem containsDuplicates_false {l : List String} : containsDuplicates l = false ↔ l.Nodup := by
  rw [← Bool.not_eq_true, containsDuplicates_iff, not_not]

theorem dictKeys_unit {l : List String} (h : l.Nodup) :
    (Py.dictOf (l.map fun x => (x, ()))).map Prod.fst = l := by
  have e : (l.map fun x => (x, ())).map Prod.fst = l := by
    rw [List.map_map]; exact List.map_id l
  rw [Py.dictOf_of_nodup (by rw [e]; exact h), e]

section
variable {consts sig : Sig} {call : List String} {g l : Lit}

theorem pairs_eq (hlen : call.length = sig.length) (cip : List String) :
    (call ++ cip).zip (Sig.names sig ++ cip) = (call.zip (Sig.names sig)) ++ cip.map (fun c => (c, c)) := by
  rw [List.zip_append (by simp [hlen])]
  congr 1
  induction cip with
  | nil => rfl
  | cons a t ih => simp [ih]

theorem pairs_snd (hlen : call.length = sig.length) (cip : List String) :
    ((call ++ cip).zip (Sig.names sig ++ cip)).map Prod.snd = Sig.names sig ++ cip := by
  apply List.map_snd_zip; simp [hlen]

theorem mem_swap_zip {a b : List String} {x y : String} : (x, y) ∈ a.zip b ↔ (y, x) ∈ b.zip a := by
  induction a generalizing b with
  | nil => simp
  | cons a as ih => cases b with
    | nil => simp
    | cons b bs => simp [ih]; grind

/-- Exact content of the matcher (no extra object). -/
theorem mem_matchLits (hp : (Sig.names sig).Nodup) (hd : ∀ x ∈ Sig.names sig, x ∉ Sig.names consts)
    (hlen : call.length = sig.length)
    (hg : (g.args.filter fun o => (Sig.names consts).contains o).Nodup) :
    l ∈ matchLits consts sig call none g ↔
      ground (subst (Sig.names sig) call) l = g ∧ l.args.Nodup ∧
        ∀ x ∈ l.args, x ∈ Sig.names sig ∨ x ∈ Sig.names consts := by
  have hlen' : call.length = (Sig.names sig).length := by simp [hlen]
  unfold matchLits
  split
  · rename_i h0
    have h0 : g.args = [] := List.length_eq_zero_iff.mp h0
    simp only [List.mem_singleton]
    constructor
    · rintro rfl
      refine ⟨?_, by simp, by simp⟩
      cases g; simp_all [ground]
    · rintro ⟨rfl, _, _⟩
      cases l; simp_all [ground]
  · rename_i h0
    set cip := g.args.filter fun o => (Sig.names consts).contains o with hcip
    have hcipm : ∀ x, x ∈ cip ↔ x ∈ g.args ∧ x ∈ Sig.names consts := by
      intro x; rw [hcip, List.mem_filter, List.contains_iff_mem]
    have hsnd : (Sig.names sig ++ cip).Nodup := by
      rw [List.nodup_append]
      refine ⟨hp, hg, ?_⟩
      rintro a ha b hb rfl
      exact hd a ha ((hcipm a).mp hb).2
    have hpn : ((call ++ cip).zip (Sig.names sig ++ cip)).Nodup := by
      apply List.Nodup.of_map Prod.snd
      rw [pairs_snd hlen]; exact hsnd
    simp only [List.mem_map, List.mem_filter, decide_eq_true_eq, signaturePerms,
      Py.mem_perms_nodup hpn]
    have hpair : ∀ p : String × String, p ∈ (call ++ cip).zip (Sig.names sig ++ cip) →
        p.1 = subst (Sig.names sig) call p.2 ∧ (p.2 ∈ Sig.names sig ∨ p.2 ∈ Sig.names consts) := by
      rintro ⟨o, x⟩ hm
      rw [pairs_eq hlen, List.mem_append, List.mem_map] at hm
      rcases hm with hm | ⟨c, hc, e⟩
      · exact ⟨(bind_of_mem_zip hp (mem_swap_zip.mp hm)).symm, Or.inl (List.of_mem_zip hm).2⟩
      · simp only [Prod.mk.injEq] at e
        obtain ⟨rfl, rfl⟩ := e
        have hcc := ((hcipm c).mp hc).2
        refine ⟨?_, Or.inr hcc⟩
        rw [bind_of_not_mem (fun h => hd _ h hcc)]
    constructor
    · rintro ⟨ps, ⟨⟨⟨h1, h2, h3⟩, _⟩, h5⟩, rfl⟩
      have hps : ps.map Prod.fst = (ps.map Prod.snd).map (subst (Sig.names sig) call) := by
        rw [List.map_map]
        exact List.map_congr_left fun p hp' => (hpair p (h3 p hp')).1
      have hnd : (ps.map Prod.snd).Nodup := by
        apply List.Nodup.map_on _ h2
        intro p hp' q hq' e
        have hm : (((call ++ cip).zip (Sig.names sig ++ cip)).map Prod.snd).Nodup := by
          rw [pairs_snd hlen]; exact hsnd
        exact List.inj_on_of_nodup_map hm (h3 p hp') (h3 q hq') e
      have hk : (Py.dictOf (ps.map fun p => (p.2, ()))).map Prod.fst = ps.map Prod.snd := by
        have := dictKeys_unit hnd
        rwa [List.map_map] at this
      rw [hk]
      refine ⟨?_, hnd, ?_⟩
      · cases g
        simp only [ground, Lit.mk.injEq, true_and, and_true]
        rw [← hps]; exact h5
      · intro x hx
        obtain ⟨p, hp', rfl⟩ := List.mem_map.mp hx
        exact (hpair p (h3 p hp')).2
    · rintro ⟨hgr, hnd, hsub⟩
      have hargs : l.args.map (subst (Sig.names sig) call) = g.args := by rw [← hgr]; rfl
      refine ⟨l.args.map fun x => (subst (Sig.names sig) call x, x), ⟨⟨⟨?_, ?_, ?_⟩, ?_⟩, ?_⟩, ?_⟩
      · rw [← hargs]; simp
      · exact hnd.map (fun a b e => by simp at e; exact e.2)
      · intro p hp'
        obtain ⟨x, hx, rfl⟩ := List.mem_map.mp hp'
        rw [pairs_eq hlen, List.mem_append, List.mem_map]
        by_cases hxs : x ∈ Sig.names sig
        · exact Or.inl (mem_swap_zip.mp (mem_zip_bind hp hlen' hxs))
        · have hxc := (hsub x hx).resolve_left hxs
          have hb : subst (Sig.names sig) call x = x := bind_of_not_mem hxs
          right
          refine ⟨x, (hcipm x).mpr ⟨?_, hxc⟩, by rw [hb]⟩
          rw [← hargs]
          exact List.mem_map.mpr ⟨x, hx, hb⟩
      · rw [List.map_map]; rw [← hargs]; rfl
      · rw [List.map_map]; rw [← hargs]; rfl
      · rw [List.map_map]
        have := dictKeys_unit hnd
        have e : ((fun p : String × String => (p.2, ())) ∘ fun x => (subst (Sig.names sig) call x, x)) = fun x => (x, ()) := rfl
        rw [e, this]
        cases l; cases g
        simp only [ground, Lit.mk.injEq] at hgr
        simp [hgr.1, hgr.2.2]

/-- The matcher's list has no repetition. -/
theorem matchLits_nodup (hp : (Sig.names sig).Nodup) (hd : ∀ x ∈ Sig.names sig, x ∉ Sig.names consts)
    (hlen : call.length = sig.length)
    (hg : (g.args.filter fun o => (Sig.names consts).contains o).Nodup) :
    (matchLits consts sig call none g).Nodup := by
  unfold matchLits
  split
  · simp
  · rename_i h0
    set cip := g.args.filter fun o => (Sig.names consts).contains o with hcip
    have hcipm : ∀ x, x ∈ cip ↔ x ∈ g.args ∧ x ∈ Sig.names consts := by
      intro x; rw [hcip, List.mem_filter, List.contains_iff_mem]
    have hsnd : (Sig.names sig ++ cip).Nodup := by
      rw [List.nodup_append]
      refine ⟨hp, hg, ?_⟩
      rintro a ha b hb rfl
      exact hd a ha ((hcipm a).mp hb).2
    have hpn : ((call ++ cip).zip (Sig.names sig ++ cip)).Nodup := by
      apply List.Nodup.of_map Prod.snd
      rw [pairs_snd hlen]; exact hsnd
    apply List.Nodup.map_on
    · intro ps hps qs hqs e
      simp only [List.mem_filter, decide_eq_true_eq, signaturePerms, Py.mem_perms_nodup hpn] at hps hqs
      obtain ⟨⟨⟨h1, h2, h3⟩, _⟩, h5⟩ := hps
      obtain ⟨⟨⟨k1, k2, k3⟩, _⟩, k5⟩ := hqs
      have hm : (((call ++ cip).zip (Sig.names sig ++ cip)).map Prod.snd).Nodup := by
        rw [pairs_snd hlen]; exact hsnd
      have hnd : (ps.map Prod.snd).Nodup := by
        apply List.Nodup.map_on _ h2
        intro p hp' q hq' e
        exact List.inj_on_of_nodup_map hm (h3 p hp') (h3 q hq') e
      have knd : (qs.map Prod.snd).Nodup := by
        apply List.Nodup.map_on _ k2
        intro p hp' q hq' e
        exact List.inj_on_of_nodup_map hm (k3 p hp') (k3 q hq') e
      simp only [Lit.mk.injEq, true_and, and_true] at e
      have a1 := dictKeys_unit hnd
      have a2 := dictKeys_unit knd
      rw [List.map_map] at a1 a2
      have e' : ps.map Prod.snd = qs.map Prod.snd := by rw [← a1, ← a2]; exact e
      have z1 : ps = (ps.map Prod.fst).zip (ps.map Prod.snd) := List.zip_of_prod rfl rfl
      have z2 : qs = (qs.map Prod.fst).zip (qs.map Prod.snd) := List.zip_of_prod rfl rfl
      rw [z1, z2, e', h5, k5]
    · exact ((Py.perms_nodup hpn).filter _).filter _

end

end Model
