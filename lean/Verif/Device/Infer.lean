import Verif.Store.Lemmas
import Mathlib.Data.List.Nodup
import Mathlib.Data.List.Perm.Basic
import Mathlib.Tactic.Tauto
/-!
# C35 — device inference (libs/device/api.py:125-176)
-/
namespace Verif.Device
open Verif.Store (lookup)

/-- A leaf of the flattened arguments: not an `Object`, or an `Object` with or without device attribute (api.py:127-135). -/
inductive Arg where
  | host
  | obj (dev : Option String)
  deriving DecidableEq

/-- Exceptions of `_infer_device_from_args`. -/
inductive InferErr where
  | inference | noCluster | keyError
  deriving DecidableEq

/-- `kind.upper()` on ASCII letters, as characters (api.py:155) -/
def upper (s : String) : List Char := s.toList.map Char.toUpper

/-- `k in ("SPU", "TEE")` (api.py:158) -/
def secureKind (k : String) : Bool := upper k = "SPU".toList || upper k = "TEE".toList

/-- `{dev_id: cluster.devices[dev_id].kind.upper() for dev_id in devices}` (api.py:155): a missing device is a KeyError. -/
def kindsOf (cl : List (String × String)) : List String → Option (List (String × String))
  | [] => some []
  | d :: ds => match lookup d cl, kindsOf cl ds with
    | some k, some ks => some ((d, k) :: ks)
    | _, _ => none

/-- the single secure device, or an error (api.py:158-176) -/
def pickSecure : List (String × String) → Except InferErr String
  | [(d, _)] => .ok d
  | _ => .error .inference

/-- `_infer_device_from_args` (api.py:125-176).  `ds` is the set of device ids, in the (arbitrary) order in which python
iterates over it; `auto` is `g_auto_trans`; `cluster` is the cluster's map from device id to kind, if there is an active one. -/
def inferFrom (auto : Bool) (cluster : Option (List (String × String))) (ds : List String) : Except InferErr String :=
  match ds with
  | [] => .error .inference
  | [d] => .ok d
  | _ => if auto then
      match cluster with
      | none => .error .noCluster
      | some cl => match kindsOf cl ds with
        | none => .error .keyError
        | some ks => pickSecure (ks.filter (fun e => secureKind e.2))
    else .error .inference

/-! ## Specification -/

/-- `ds` lists the set of the devices of the arguments (each once, in any order). -/
def Devices (args : List Arg) (ds : List String) : Prop := ds.Nodup ∧ ∀ d, d ∈ ds ↔ Arg.obj (some d) ∈ args

/-- Device `d` of the cluster is a secure one. -/
def Secure (cl : List (String × String)) (d : String) : Prop :=
  ∃ k, lookup d cl = some k ∧ (upper k = "SPU".toList ∨ upper k = "TEE".toList)

/-- The device a call without explicit device should run on. -/
def Chosen (auto : Bool) (cluster : Option (List (String × String))) (args : List Arg) (d : String) : Prop :=
  Arg.obj (some d) ∈ args ∧
  ((∀ d', Arg.obj (some d') ∈ args → d' = d) ∨
   (auto = true ∧ ∃ cl, cluster = some cl ∧ (∀ d', Arg.obj (some d') ∈ args → ∃ k, lookup d' cl = some k) ∧
     Secure cl d ∧ ∀ d', Arg.obj (some d') ∈ args → Secure cl d' → d' = d))

/-! ## C35 -/

theorem kindsOf_some (cl : List (String × String)) (ds : List String) (ks : List (String × String)) (h : kindsOf cl ds = some ks) :
    ks.map Prod.fst = ds ∧ ∀ e ∈ ks, lookup e.1 cl = some e.2 := by
  induction ds generalizing ks with
  | nil => simp only [kindsOf, Option.some.injEq] at h; subst h; simp
  | cons d ds ih =>
    unfold kindsOf at h
    cases h1 : lookup d cl with
    | none => rw [h1] at h; simp at h
    | some k =>
      cases h2 : kindsOf cl ds with
      | none => rw [h1, h2] at h; simp at h
      | some l =>
        rw [h1, h2] at h
        simp only [Option.some.injEq] at h
        subst h
        obtain ⟨i1, i2⟩ := ih l h2
        refine ⟨by simp [i1], fun e he => ?_⟩
        rcases List.mem_cons.1 he with rfl | he
        · exact h1
        · exact i2 e he

theorem kindsOf_isSome (cl : List (String × String)) (ds : List String) :
    (∃ ks, kindsOf cl ds = some ks) ↔ ∀ d ∈ ds, ∃ k, lookup d cl = some k := by
  induction ds with
  | nil => simp [kindsOf]
  | cons d ds ih =>
    unfold kindsOf
    cases h1 : lookup d cl with
    | none => simp [h1]
    | some k =>
      cases h2 : kindsOf cl ds with
      | none =>
        rw [h2] at ih
        simp only [reduceCtorEq, exists_false, false_iff, List.mem_cons, forall_eq_or_imp, h1, Option.some.injEq, exists_eq',
          true_and] at ih ⊢
        exact ih
      | some l =>
        rw [h2] at ih
        simp only [Option.some.injEq, exists_eq', true_iff, List.mem_cons, forall_eq_or_imp, h1, true_and] at ih ⊢
        exact ih

theorem pickSecure_ok (l : List (String × String)) (d : String) : pickSecure l = .ok d ↔ ∃ k, l = [(d, k)] := by
  match l with
  | [] => simp [pickSecure]
  | [(a, k)] => simp [pickSecure]
  | a :: b :: l => simp [pickSecure]

theorem secureKind_iff (k : String) : secureKind k = true ↔ upper k = "SPU".toList ∨ upper k = "TEE".toList := by
  simp [secureKind]

/-- **C35.** The call runs on device `d` exactly if `d` is the device all device-bound arguments share, or — with automatic
transfer enabled and all devices known — the only secure device among several; in all other cases an exception is raised. -/
theorem infer_iff (auto : Bool) (cluster : Option (List (String × String))) (args : List Arg) (ds : List String) (hds : Devices args ds)
    (d : String) : inferFrom auto cluster ds = .ok d ↔ Chosen auto cluster args d := by
  obtain ⟨hn, hm⟩ := hds
  unfold Chosen
  simp only [← hm]
  match ds, hn with
  | [], _ => simp [inferFrom]
  | [a], _ =>
    simp only [inferFrom, Except.ok.injEq, List.mem_singleton]
    constructor
    · rintro rfl
      exact ⟨rfl, .inl (fun d' h => h)⟩
    · rintro ⟨h, _⟩
      exact h.symm
  | a :: b :: l, hn =>
    have hab : a ≠ b := by
      intro h
      subst h
      simp at hn
    have hnot : ¬ ∀ d', d' ∈ a :: b :: l → d' = d := by
      intro h
      exact hab ((h a (by simp)).trans (h b (by simp)).symm)
    simp only [hnot, false_or]
    generalize hD : a :: b :: l = D at *
    have hI : inferFrom auto cluster D = if auto then
      match cluster with
      | none => .error .noCluster
      | some cl => match kindsOf cl D with
        | none => .error .keyError
        | some ks => pickSecure (ks.filter (fun e => secureKind e.2))
      else .error .inference := by rw [← hD]; rfl
    rw [hI]
    by_cases hauto : auto = true
    · rw [if_pos hauto]
      cases cluster with
      | none => simp
      | some cl =>
        simp only
        cases hk : kindsOf cl D with
        | none =>
          simp only [reduceCtorEq, false_iff]
          rintro ⟨_, _, cl', hcl, hall, _⟩
          cases hcl
          obtain ⟨ks, h⟩ := (kindsOf_isSome cl D).2 hall
          rw [hk] at h; simp at h
        | some ks =>
          simp only
          have hall := (kindsOf_isSome cl D).1 ⟨ks, hk⟩
          obtain ⟨h1, h2⟩ := kindsOf_some cl D ks hk
          have hkn : (ks.map Prod.fst).Nodup := by rw [h1]; exact hn
          have hin : ∀ d' k, (d', k) ∈ ks ↔ d' ∈ D ∧ lookup d' cl = some k := by
            intro d' k
            constructor
            · intro h
              exact ⟨by rw [← h1]; exact List.mem_map_of_mem h, h2 _ h⟩
            · rintro ⟨ha, hb⟩
              rw [← h1] at ha
              obtain ⟨e, he, rfl⟩ := List.mem_map.1 ha
              have := h2 e he
              rw [hb] at this
              obtain ⟨e1, e2⟩ := e
              simp only [Option.some.injEq] at this
              subst this; exact he
          rw [pickSecure_ok]
          constructor
          · rintro ⟨k, hf⟩
            have hmem : (d, k) ∈ ks.filter (fun e => secureKind e.2) := by rw [hf]; simp
            obtain ⟨hks, hsec⟩ := List.mem_filter.1 hmem
            obtain ⟨hdD, hdk⟩ := (hin d k).1 hks
            refine ⟨hdD, hauto, cl, rfl, hall, ⟨k, hdk, (secureKind_iff k).1 hsec⟩, ?_⟩
            rintro d' hd' ⟨k', hk', hs'⟩
            have : (d', k') ∈ ks.filter (fun e => secureKind e.2) :=
              List.mem_filter.2 ⟨(hin d' k').2 ⟨hd', hk'⟩, (secureKind_iff k').2 hs'⟩
            rw [hf] at this
            simp only [List.mem_singleton, Prod.mk.injEq] at this
            exact this.1
          · rintro ⟨hdD, _, cl', hcl, _, ⟨k, hdk, hsec⟩, huniq⟩
            cases hcl
            refine ⟨k, ?_⟩
            have hmem : (d, k) ∈ ks.filter (fun e => secureKind e.2) :=
              List.mem_filter.2 ⟨(hin d k).2 ⟨hdD, hdk⟩, (secureKind_iff k).2 hsec⟩
            have hnd : (ks.filter (fun e => secureKind e.2)).Nodup := (List.Nodup.of_map _ hkn).filter _
            refine List.perm_singleton.1 ((List.perm_ext_iff_of_nodup hnd (by simp)).2 (fun e => ?_))
            rw [List.mem_singleton]
            constructor
            · intro he
              obtain ⟨hks, hs'⟩ := List.mem_filter.1 he
              obtain ⟨d', k'⟩ := e
              obtain ⟨hd', hk'⟩ := (hin d' k').1 hks
              have := huniq d' hd' ⟨k', hk', (secureKind_iff k').1 hs'⟩
              subst this
              rw [hdk] at hk'
              cases hk'; rfl
            · rintro rfl; exact hmem
    · rw [if_neg hauto]
      simp [hauto]

/-- **C35.** The outcome depends only on which devices occur among the arguments: not on the order or number of arguments,
nor on the iteration order of the set, nor on host values and objects without a device. -/
theorem infer_order (auto : Bool) (cluster : Option (List (String × String))) (args args' : List Arg) (ds ds' : List String)
    (h : Devices args ds) (h' : Devices args' ds') (hsame : ∀ d, Arg.obj (some d) ∈ args ↔ Arg.obj (some d) ∈ args') :
    (inferFrom auto cluster ds).toOption = (inferFrom auto cluster ds').toOption := by
  have key : ∀ d, inferFrom auto cluster ds = .ok d ↔ inferFrom auto cluster ds' = .ok d := by
    intro d
    rw [infer_iff auto cluster args ds h, infer_iff auto cluster args' ds' h']
    simp only [Chosen, hsame]
  cases h1 : inferFrom auto cluster ds with
  | ok d => rw [(key d).1 h1]
  | error e =>
    cases h2 : inferFrom auto cluster ds' with
    | ok d => rw [(key d).2 h2] at h1; simp at h1
    | error e' => rfl

/-- The set of devices always exists, so the theorems above are about every call. -/
theorem devices_exist (args : List Arg) : ∃ ds, Devices args ds := by
  induction args with
  | nil => exact ⟨[], by simp [Devices]⟩
  | cons a args ih =>
    obtain ⟨ds, h1, h2⟩ := ih
    match a with
    | .host => exact ⟨ds, h1, fun d => by simp [h2 d]⟩
    | .obj none => exact ⟨ds, h1, fun d => by simp [h2 d]⟩
    | .obj (some x) =>
      by_cases hx : x ∈ ds
      · refine ⟨ds, h1, fun d => ?_⟩
        rw [h2 d]
        simp only [List.mem_cons, Arg.obj.injEq, Option.some.injEq]
        constructor
        · exact .inr
        · rintro (rfl | h)
          · exact (h2 d).1 hx
          · exact h
      · refine ⟨x :: ds, List.nodup_cons.2 ⟨hx, h1⟩, fun d => ?_⟩
        simp only [List.mem_cons, h2 d, Arg.obj.injEq, Option.some.injEq]

/-! Non-vacuity: two PPUs and one SPU. -/
def exCl : List (String × String) := [("P0", "ppu"), ("P1", "PPU"), ("SP0", "SPU"), ("T0", "tee")]
example : inferFrom true (some exCl) ["P0", "SP0", "P1"] = .ok "SP0" := rfl
example : inferFrom true (some exCl) ["P0", "P1"] = .error .inference := rfl
example : inferFrom true (some exCl) ["SP0", "T0"] = .error .inference := rfl
example : Devices [.obj (some "P0"), .host, .obj (some "SP0"), .obj none, .obj (some "P0")] ["SP0", "P0"] := by
  refine ⟨by decide, fun d => ?_⟩
  simp only [List.mem_cons, Arg.obj.injEq, Option.some.injEq, List.not_mem_nil, or_false, reduceCtorEq, false_or]
  tauto

end Verif.Device
