import Verif.Simp.Program
/-!
# The parties' code refines the specification, in every schedule
-/
namespace Verif.Simp
open Verif.Comm

section
variable {V T A : Type}

/-- the code of a task at one party -/
def taskRun (tr : V → Bool) (N f g rank : Nat) : Task V T → List (LV V) → Proc (SMsg V) (List (LV V))
  | .op o => opRun tr N f rank o
  | .ops os => opsRun tr N f rank os
  | .region r => regionRun tr N f rank r
  | .loop cnd body caps =>
    loopRun tr (fun x => regionRun tr N f rank cnd x) (fun x => regionRun tr N f rank body x) (caps rank) g

/-- the `N` parties go on with `f`, everything else is unchanged -/
def next {M A : Type} (N : Nat) (P f : Nat → Proc M A) : Nat → Proc M A := fun p => if p < N then f p else P p

theorem next_next {M A : Type} (N : Nat) (P f g : Nat → Proc M A) : next N (next N P f) g = next N P g := by
  funext p; simp only [next]; split <;> rfl

theorem next_eq {M A : Type} {N : Nat} {P f : Nat → Proc M A} (h : ∀ p, p < N → P p = f p) : next N P f = P := by
  funext p
  simp only [next]
  split
  · rename_i hp; exact (h p hp).symm
  · rfl

theorem next_congr {M A : Type} {N : Nat} {P f g : Nat → Proc M A} (h : ∀ p, p < N → f p = g p) : next N P f = next N P g := by
  funext p
  simp only [next]
  split
  · rename_i hp; exact h p hp
  · rfl

/-- from a synchronised state with code `P` the parties can get to code `P'` -/
def To {M A : Type} (N : Nat) (P P' : Nat → Proc M A) : Prop :=
  ∀ c, Symm c → ∃ c', Symm c' ∧ Reach N (syncSt P c) (syncSt P' c')

theorem To.refl {M A : Type} (N : Nat) (P : Nat → Proc M A) : To N P P := fun c hc => ⟨c, hc, reach_refl N _⟩

theorem To.trans {M A : Type} {N : Nat} {P Q R : Nat → Proc M A} (h1 : To N P Q) (h2 : To N Q R) : To N P R := by
  intro c hc
  obtain ⟨c1, hc1, r1⟩ := h1 c hc
  obtain ⟨c2, hc2, r2⟩ := h2 c1 hc1
  exact ⟨c2, hc2, reach_trans r1 r2⟩

/-- the code of the task takes the parties from `σ` to `ρ` -/
def Sim (A : Type) (tr : V → Bool) (N : Nat) (t : Task V T) (σ ρ : Nat → List (LV V)) : Prop :=
  ∃ f0, ∀ f g, f0 ≤ f → f0 ≤ g → ∀ (k : Nat → List (LV V) → Proc (SMsg V) A) (P : Nat → Proc (SMsg V) A),
    (∀ p, p < N → P p = (taskRun tr N f g p t (σ p)).bind (k p)) → To N P (next N P (fun p => k p (ρ p)))

theorem everyone_ranks (N : Nat) (p : Nat) : p ∈ ranks (everyone N) ↔ p < N := by
  rw [mem_ranks]
  · simp only [everyone, List.mem_map, List.mem_range, Int.ofNat_eq_natCast]
    exact ⟨fun ⟨a, h1, h2⟩ => by omega, fun h => ⟨p, h, rfl⟩⟩
  · intro r hr
    simp only [everyone, List.mem_map] at hr
    obtain ⟨a, _, rfl⟩ := hr
    simp

theorem everyone_valid {N : Nat} (h : 0 < N) : ValidParts N (everyone N) := by
  refine ⟨?_, ?_⟩
  · simp only [everyone, ne_eq, List.map_eq_nil_iff, List.range_eq_nil]; omega
  · intro r hr
    simp only [everyone, List.mem_map, List.mem_range] at hr
    obtain ⟨a, ha, rfl⟩ := hr
    simp [ha]

theorem after_everyone {M A : Type} (N : Nat) (P f : Nat → Proc M A) : after P (everyone N) f = next N P f := by
  funext p
  simp only [after, next, everyone_ranks]

/-- agreement check, all predicates equal -/
theorem verify_uniform_to {N : Nat} (hN : 0 < N) (tr : V → Bool) (pr : Nat → Bool) (b : Bool) (hb : ∀ p, p < N → pr p = b)
    (k : Nat → Bool → Proc (SMsg V) A) (P : Nat → Proc (SMsg V) A)
    (hP : ∀ p, p < N → P p = (verifyUniform tr N p (pr p)).bind (k p)) : To N P (next N P (fun p => k p b)) := by
  have hv := everyone_valid hN
  have hall : ∀ (q : Nat), q ∈ ranks (everyone N) → pr q = b := fun q hq => hb q ((everyone_ranks N q).mp hq)
  intro c hc
  obtain ⟨c1, hc1, r1⟩ := allreduce_reach (truthy tr) (· && ·) (everyone N) hv pr
    (fun p a => ((allreduceBool (truthy tr) (· || ·) N p (pr p) (everyone N)).bind fun o => verifyEnd N p (pr p) a o).bind (k p)) P c hc
    (fun p hp => by rw [hP p ((everyone_ranks N p).mp hp), verifyUniform, bind_assoc])
  rw [after_everyone, and_result hv] at r1
  generalize hA : (ranks (everyone N)).all pr = a at r1
  generalize hQ : next N P _ = Q at r1
  obtain ⟨c2, hc2, r2⟩ := allreduce_reach (truthy tr) (· || ·) (everyone N) hv pr
    (fun p o => (verifyEnd N p (pr p) a o).bind (k p)) Q c1 hc1
    (fun p hp => by rw [← hQ]; simp only [next, (everyone_ranks N p).mp hp, if_true, bind_assoc])
  rw [after_everyone, or_result hv] at r2
  generalize hO : (ranks (everyone N)).any pr = o at r2
  refine ⟨c2, hc2, ?_⟩
  convert reach_trans r1 r2 using 2
  rw [← hQ, next_next]
  apply next_congr
  intro p hp
  have h0 : 0 ∈ ranks (everyone N) := (everyone_ranks N 0).mpr hN
  have ha : a = b := by
    rw [← hA]
    cases b with
    | true => exact List.all_eq_true.mpr hall
    | false => exact List.all_eq_false.mpr ⟨0, h0, by simp [hall 0 h0]⟩
  have ho : o = b := by
    rw [← hO]
    cases b with
    | true => exact List.any_eq_true.mpr ⟨0, h0, hall 0 h0⟩
    | false => exact List.any_eq_false.mpr (fun q hq => by simp [hall q hq])
  simp [verifyEnd, ha, ho, hb p hp, Proc.bind]

/-- agreement check, predicates differ: every party raises -/
theorem verify_differs_to {N : Nat} (tr : V → Bool) (pr : Nat → Bool) (x y : Nat) (hx : x < N) (hy : y < N)
    (hxt : pr x = true) (hyf : pr y = false)
    (k : Nat → Bool → Proc (SMsg V) A) (P : Nat → Proc (SMsg V) A)
    (hP : ∀ p, p < N → P p = (verifyUniform tr N p (pr p)).bind (k p)) : To N P (next N P (fun _ => .fail)) := by
  have hv := everyone_valid (Nat.lt_of_le_of_lt (Nat.zero_le _) hx)
  intro c hc
  obtain ⟨c1, hc1, r1⟩ := allreduce_reach (truthy tr) (· && ·) (everyone N) hv pr
    (fun p a => ((allreduceBool (truthy tr) (· || ·) N p (pr p) (everyone N)).bind fun o => verifyEnd N p (pr p) a o).bind (k p)) P c hc
    (fun p hp => by rw [hP p ((everyone_ranks N p).mp hp), verifyUniform, bind_assoc])
  rw [after_everyone, and_result hv] at r1
  have ha : (ranks (everyone N)).all pr = false := List.all_eq_false.mpr ⟨y, (everyone_ranks N y).mpr hy, by simp [hyf]⟩
  rw [ha] at r1
  generalize hQ : next N P _ = Q at r1
  obtain ⟨c2, hc2, r2⟩ := allreduce_reach (truthy tr) (· || ·) (everyone N) hv pr
    (fun p o => (verifyEnd N p (pr p) false o).bind (k p)) Q c1 hc1
    (fun p hp => by rw [← hQ]; simp only [next, (everyone_ranks N p).mp hp, if_true, bind_assoc])
  have ho : (ranks (everyone N)).any pr = true := List.any_eq_true.mpr ⟨x, (everyone_ranks N x).mpr hx, hxt⟩
  rw [after_everyone, or_result hv, ho] at r2
  generalize hR : next N Q _ = R at r2
  obtain ⟨c3, hc3, r3⟩ := allgather_reach (everyone N) hv (fun p => Msg.bool (pr p)) (fun _ _ => Proc.fail) R c2 hc2
    (fun p hp => by
      rw [← hR]
      simp only [next, (everyone_ranks N p).mp hp, if_true, verifyEnd, ne_eq, Bool.false_eq_true, not_false_eq_true, bind_assoc]
      rfl)
  rw [after_everyone] at r3
  refine ⟨c3, hc3, ?_⟩
  convert reach_trans r1 (reach_trans r2 r3) using 2
  rw [← hR, ← hQ, next_next, next_next]

theorem sim_local {tr : V → Bool} {N : Nat} {t : Task V T} {σ ρ : Nat → List (LV V)}
    (h : ∀ f g p, p < N → taskRun tr N f g p t (σ p) = .ret (ρ p)) : Sim A tr N t σ ρ := by
  refine ⟨0, fun f g _ _ k P hP => ?_⟩
  rw [next_eq (fun p hp => by rw [hP p hp, h f g p hp]; rfl)]
  exact To.refl N P

theorem ev_sim (A : Type) (tr : V → Bool) (N : Nat) (t : Task V T) (σ ρ : Nat → List (LV V)) (h : Ev tr N t σ ρ) : Sim A tr N t σ ρ := by
  induction h with
  | pcall parties F outs args σ ρ a h1 h2 h3 =>
    apply sim_local
    intro f g p hp
    simp only [taskRun, opRun, h1 p hp, withArgs]
    by_cases hm : p ∈ parties
    · obtain ⟨h4, h5⟩ := h2 p hp hm
      simp [hm, localCall, h4, h5]
    · simp [hm, h3 p hp hm]
  | pcallDyn F outs args σ ρ a h1 h2 =>
    apply sim_local
    intro f g p hp
    obtain ⟨h4, h5⟩ := h2 p hp
    simp [taskRun, opRun, h1 p hp, withArgs, localCall, h4, h5]
  | shuffle routing arg σ ρ d hr hns h1 h2 =>
    refine ⟨0, fun f g _ _ k P hP c hc => ?_⟩
    obtain ⟨c', hc', r⟩ := shuffle_reach routing hr hns d (fun p x => k p [x]) P c hc (fun p hp => by
      rw [hP p hp]
      simp only [taskRun, opRun, h1 p hp, withArgs, bind_assoc]
      rfl)
    refine ⟨c', hc', ?_⟩
    convert r using 2
    apply next_congr
    intro p hp
    rw [h2 p hp]
  | converge args σ ρ a h1 h2 =>
    apply sim_local
    intro f g p hp
    simp [taskRun, opRun, h1 p hp, withArgs, h2 p hp]
  | cond verify pred args thn els σ ρ a v b h1 h2 h3 _ ih =>
    obtain ⟨f0, ih⟩ := ih
    refine ⟨f0, fun f g hf hg k P hP => ?_⟩
    by_cases hN : 0 < N
    swap
    · rw [next_eq (fun p hp => absurd hp (by omega))]; exact To.refl N P
    have key : To N P (next N P (fun p => (taskRun tr N f g p (.region (if b then thn else els)) (a p)).bind (k p))) := by
      cases verify with
      | true =>
        refine To.trans (verify_uniform_to hN tr (fun p => truthy tr (v p)) b h2
          (fun p b' => (if b' then regionRun tr N f p thn (a p) else regionRun tr N f p els (a p)).bind (k p)) P ?_) ?_
        · intro p hp
          rw [hP p hp]
          simp only [taskRun, opRun, h1 p hp, h3 p hp, withArgs, if_true, bind_assoc]
        · rw [next_congr (g := fun p => (taskRun tr N f g p (.region (if b then thn else els)) (a p)).bind (k p))]
          · exact To.refl N _
          · intro p hp
            cases b <;> rfl
      | false =>
        rw [next_eq]
        · exact To.refl N P
        · intro p hp
          rw [hP p hp]
          simp only [taskRun, opRun, h1 p hp, h3 p hp, withArgs, Bool.false_eq_true, if_false, Proc.bind, h2 p hp]
          cases b <;> rfl
    refine To.trans key ?_
    have := ih f g hf hg k (next N P (fun p => (taskRun tr N f g p (.region (if b then thn else els)) (a p)).bind (k p)))
      (fun p hp => by simp [next, hp])
    rwa [next_next] at this
  | loopOp state caps cnd body σ ρ st cs h1 h2 _ ih =>
    obtain ⟨f0, ih⟩ := ih
    refine ⟨f0, fun f g hf hg k P hP => ih f f hf hf k P ?_⟩
    intro p hp
    rw [hP p hp]
    simp only [taskRun, opRun, h1 p hp, h2 p hp, withArgs]
  | loopDone cnd body cs st cv ρ _ h1 h2 ih =>
    obtain ⟨f0, ih⟩ := ih
    refine ⟨f0 + 1, fun f g hf hg k P hP => ?_⟩
    obtain ⟨g, rfl⟩ : ∃ n, g = n + 1 := ⟨g - 1, by omega⟩
    have := ih f g (by omega) (by omega)
      (fun p cv => (if condTruth tr cv then (regionRun tr N f p body (st p ++ cs p)).bind
        (fun st' => loopRun tr (fun x => regionRun tr N f p cnd x) (fun x => regionRun tr N f p body x) (cs p) g st') else .ret (st p)).bind (k p)) P
      (fun p hp => by
        rw [hP p hp]
        simp only [taskRun, loopRun, bind_assoc])
    refine To.trans this ?_
    rw [next_congr (g := fun p => k p (ρ p))]
    · exact To.refl N _
    · intro p hp
      simp [h1 p hp, h2 p hp, Proc.bind]
  | loopStep cnd body cs st st' cv ρ _ h1 _ _ ih1 ih2 ih3 =>
    obtain ⟨f1, ih1⟩ := ih1
    obtain ⟨f2, ih2⟩ := ih2
    obtain ⟨f3, ih3⟩ := ih3
    refine ⟨f1 + f2 + f3 + 1, fun f g hf hg k P hP => ?_⟩
    obtain ⟨g, rfl⟩ : ∃ n, g = n + 1 := ⟨g - 1, by omega⟩
    have t1 := ih1 f g (by omega) (by omega)
      (fun p cv => (if condTruth tr cv then (regionRun tr N f p body (st p ++ cs p)).bind
        (fun st' => loopRun tr (fun x => regionRun tr N f p cnd x) (fun x => regionRun tr N f p body x) (cs p) g st') else .ret (st p)).bind (k p)) P
      (fun p hp => by
        rw [hP p hp]
        simp only [taskRun, loopRun, bind_assoc])
    refine To.trans t1 ?_
    generalize hQ : next N P _ = Q
    have t2 := ih2 f g (by omega) (by omega)
      (fun p st' => (loopRun tr (fun x => regionRun tr N f p cnd x) (fun x => regionRun tr N f p body x) (cs p) g st').bind (k p)) Q
      (fun p hp => by
        rw [← hQ]
        simp only [next, hp, if_true, h1 p hp, bind_assoc]
        rfl)
    refine To.trans t2 ?_
    generalize hR : next N Q _ = R
    have t3 := ih3 f g (by omega) (by omega) k R (fun p hp => by
      rw [← hR]
      simp only [next, hp, if_true]
      rfl)
    have : next N P (fun p => k p (ρ p)) = next N R (fun p => k p (ρ p)) := by
      rw [← hR, ← hQ, next_next, next_next]
    rwa [this]
  | region os outs σ σ' ρ _ h1 ih =>
    obtain ⟨f0, ih⟩ := ih
    refine ⟨f0, fun f g hf hg k P hP => ?_⟩
    have := ih f g hf hg (fun p e => (withArgs (pick e outs) .ret).bind (k p)) P (fun p hp => by
      rw [hP p hp]
      simp only [taskRun, regionRun, bind_assoc])
    rw [next_congr (g := fun p => k p (ρ p)) (fun p hp => by simp [h1 p hp, withArgs, Proc.bind])] at this
    exact this
  | nil σ =>
    apply sim_local
    intro f g p hp
    rfl
  | cons o os σ r σ' _ _ ih1 ih2 =>
    obtain ⟨f1, ih1⟩ := ih1
    obtain ⟨f2, ih2⟩ := ih2
    refine ⟨f1 + f2, fun f g hf hg k P hP => ?_⟩
    have t1 := ih1 f g (by omega) (by omega) (fun p r => (opsRun tr N f p os (σ p ++ r)).bind (k p)) P (fun p hp => by
      rw [hP p hp]
      simp only [taskRun, opsRun, bind_assoc])
    refine To.trans t1 ?_
    generalize hQ : next N P _ = Q
    have t2 := ih2 f g (by omega) (by omega) k Q (fun p hp => by
      rw [← hQ]
      simp only [next, hp, if_true]
      rfl)
    rw [← hQ, next_next] at t2
    rw [← hQ]
    exact t2

end
end Verif.Simp
