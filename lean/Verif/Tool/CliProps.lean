import Verif.Tool.Cli
/-!
# Clusters on the command line: the properties (C119, C120)
-/
namespace Verif.Tool.Cli
open Verif.Device

variable {J : Type}

/-! ## Specification -/

/-- The address `url` names the port `port`: it ends in a colon and the decimal digits of the port. -/
def Names (url : String) (port : Nat) : Prop :=
  ∃ pre ds, url.toList = pre ++ ':' :: ds ∧ ds ≠ [] ∧ (∀ c ∈ ds, c.isDigit = true) ∧ Nat.ofDigitChars 10 ds 0 = port

/-- The address begins with a scheme. -/
def HasScheme (url : String) : Prop := "http://".toList <+: url.toList ∨ "https://".toList <+: url.toList

/-! ## Proof -/

theorem splitOn_ne (sep : Char) (l : List Char) : splitOn sep l ≠ [] := by
  cases l with
  | nil => simp [splitOn]
  | cons c l =>
    unfold splitOn
    split
    · simp
    · split <;> simp

theorem splitOn_last (sep : Char) (l : List Char) :
    ∃ pre, (l = pre ++ (splitOn sep l).getLastD [] ∧ (pre = [] ∨ ∃ q, pre = q ++ [sep])) ∧ sep ∉ (splitOn sep l).getLastD [] := by
  induction l with
  | nil => exact ⟨[], ⟨rfl, .inl rfl⟩, by simp [splitOn]⟩
  | cons c l ih =>
    obtain ⟨pre, ⟨h1, h2⟩, h3⟩ := ih
    have hne := splitOn_ne sep l
    by_cases hc : c = sep
    · have e : (splitOn sep (c :: l)).getLastD [] = (splitOn sep l).getLastD [] := by
        have e0 : splitOn sep (c :: l) = [] :: splitOn sep l := by rw [splitOn.eq_def]; simp only; rw [if_pos hc]
        rw [e0]
        cases hs : splitOn sep l with
        | nil => exact absurd hs hne
        | cons w ws => simp [List.getLastD]
      rw [e]
      refine ⟨c :: pre, ⟨by rw [List.cons_append, ← h1], .inr ?_⟩, h3⟩
      rcases h2 with rfl | ⟨q, rfl⟩
      · exact ⟨[], by simp [hc]⟩
      · exact ⟨c :: q, rfl⟩
    · cases hs : splitOn sep l with
      | nil => exact absurd hs hne
      | cons w ws =>
        have e : splitOn sep (c :: l) = (c :: w) :: ws := by
          rw [splitOn.eq_def]; simp only; rw [if_neg hc, hs]
        rw [e]
        cases ws with
        | nil =>
          rw [hs] at h1 h3
          simp only [List.getLastD, List.getLast_singleton] at h1 h3 ⊢
          rcases h2 with rfl | ⟨q, rfl⟩
          · refine ⟨[], ⟨by simpa using h1, .inl rfl⟩, ?_⟩
            simp only [List.mem_cons, not_or]
            exact ⟨fun hh => hc hh.symm, h3⟩
          · -- a separator in `l` would have split it
            exfalso
            have hmem : sep ∈ l := by rw [h1]; simp
            have key : ∀ m : List Char, sep ∈ m → 2 ≤ (splitOn sep m).length := by
              intro m
              induction m with
              | nil => simp
              | cons d m ihm =>
                intro hd
                rw [splitOn.eq_def]
                simp only
                split
                · simp only [List.length_cons]
                  have := List.length_pos_iff.2 (splitOn_ne sep m)
                  omega
                · next hds =>
                  have := ihm (by simpa [Ne.symm hds] using hd)
                  cases hsm : splitOn sep m with
                  | nil => rw [hsm] at this; simp at this
                  | cons x xs => rw [hsm] at this; simpa using this
            have := key l hmem
            rw [hs] at this
            simp at this
        | cons x xs =>
          rw [hs] at h1 h3
          simp only [List.getLastD] at h1 h3 ⊢
          rw [List.getLast_cons (by simp)] at h1 h3 ⊢
          refine ⟨c :: pre, ⟨by rw [List.cons_append, ← h1], ?_⟩, h3⟩
          rcases h2 with rfl | ⟨q, rfl⟩
          · -- then `l` has no separator but was split
            exfalso
            have hno : sep ∉ l := by rw [h1]; simpa using h3
            have key : ∀ m : List Char, sep ∉ m → (splitOn sep m).length = 1 := by
              intro m
              induction m with
              | nil => simp [splitOn]
              | cons d m ihm =>
                intro hd
                simp only [List.mem_cons, not_or] at hd
                rw [splitOn.eq_def]
                simp only
                rw [if_neg (fun hh => hd.1 hh.symm)]
                have := ihm hd.2
                cases hsm : splitOn sep m with
                | nil => rw [hsm] at this; simp at this
                | cons y ys => rw [hsm] at this; simpa using this
            have := key l hno
            rw [hs] at this
            simp at this
          · exact .inr ⟨c :: q, rfl⟩

theorem splitOn_head (sep : Char) (h rest : List Char) (hh : sep ∉ h) : (splitOn sep (h ++ sep :: rest)).headD [] = h := by
  induction h with
  | nil => simp [splitOn]
  | cons c h ih =>
    simp only [List.mem_cons, not_or] at hh
    have := ih hh.2
    rw [List.cons_append, splitOn.eq_def]
    simp only
    rw [if_neg (fun e => hh.1 e.symm)]
    cases hs : splitOn sep (h ++ sep :: rest) with
    | nil => exact absurd hs (splitOn_ne _ _)
    | cons w ws => rw [hs] at this; simp only [List.headD_cons] at this ⊢; rw [this]

theorem int?_ok {s : List Char} {p : Nat} (h : int? s = .ok p) : s ≠ [] ∧ (∀ c ∈ s, c.isDigit = true) ∧ Nat.ofDigitChars 10 s 0 = p := by
  unfold int? at h
  split at h
  · next hs => exact ⟨hs.1, by simpa [List.all_eq_true] using hs.2, Except.ok.inj h⟩
  · cases h

theorem normalize_h (ep : String) : ∃ t, (normalize ep).toList = 'h' :: t := by
  unfold normalize
  split
  · next h =>
    obtain ⟨t, ht⟩ := List.isPrefixOf_iff_prefix.1 h
    exact ⟨['t', 't', 'p'] ++ t, by rw [← ht]; rfl⟩
  · exact ⟨"ttp://".toList ++ ep.toList, by rw [String.toList_append]; rfl⟩

theorem port_names {ep : String} {p : Nat} (h : portOf (normalize ep) = .ok p) : Names (normalize ep) p := by
  obtain ⟨h1, h2, h3⟩ := int?_ok h
  obtain ⟨pre, ⟨e, hp⟩, _⟩ := splitOn_last ':' (normalize ep).toList
  rcases hp with rfl | ⟨q, rfl⟩
  · exfalso
    obtain ⟨t, ht⟩ := normalize_h ep
    rw [List.nil_append] at e
    have : 'h' ∈ (splitOn ':' (normalize ep).toList).getLastD [] := by rw [← e, ht]; simp
    have := h2 _ this
    exact absurd this (by decide)
  · exact ⟨q, _, e.trans (by rw [List.append_assoc]; rfl), h1, h2, h3⟩

theorem names_repr (pre : String) (n : Nat) : Names (pre ++ ":" ++ n.repr) n :=
  ⟨pre.toList, n.repr.toList, by simp, Base.repr_ne_nil n, fun _ h => Base.repr_isDigit h, by
    rw [Nat.toList_repr]; exact Nat.ofDigitChars_toDigits (by decide) (by decide)⟩

theorem mapE_ok {A B : Type} {f : A → Except Err B} {l : List A} {r : List B} (h : mapE f l = .ok r) : List.Forall₂ (fun a b => f a = .ok b) l r := by
  induction l generalizing r with
  | nil => cases h; exact .nil
  | cons a l ih =>
    unfold mapE at h
    cases hf : f a with
    | error e => rw [hf] at h; cases h
    | ok b =>
      rw [hf] at h
      simp only at h
      cases hm : mapE f l with
      | error e => rw [hm] at h; cases h
      | ok bs => rw [hm] at h; cases h; exact .cons hf (ih hm)

theorem mapE_of {A B : Type} {f : A → Except Err B} {l : List A} {r : List B} (h : List.Forall₂ (fun a b => f a = .ok b) l r) : mapE f l = .ok r := by
  induction h with
  | nil => rfl
  | cons h1 _ ih => unfold mapE; rw [h1, ih]

/-- What `build_endpoints` promises. -/
structure Plan.Good (p : Plan) : Prop where
  size : p.worldSize = p.endpoints.length
  ports : List.Forall₂ Names p.endpoints p.ports

theorem flags_good (a : Args J) : (fromFlags a).Good := by
  refine ⟨by simp [fromFlags], ?_⟩
  simp only [fromFlags]
  rw [List.forall₂_map_left_iff, List.forall₂_map_right_iff, List.forall₂_same]
  exact fun i _ => names_repr "http://127.0.0.1" _

theorem nodeAddr_ok {n : NodeCfg J} {q : String × Nat} (h : nodeAddr n = .ok q) : ∃ ep, n.endpoint = some ep ∧ q.1 = normalize ep ∧ Names q.1 q.2 := by
  unfold nodeAddr at h
  cases he : n.endpoint with
  | none => rw [he] at h; cases h
  | some ep =>
    rw [he] at h
    simp only at h
    cases hp : portOf (normalize ep) with
    | error e => rw [hp] at h; cases h
    | ok p => rw [hp] at h; cases h; exact ⟨ep, rfl, rfl, port_names hp⟩

theorem fromConfig_ok {a : Args J} {c : Config J} {p : Plan} (h : fromConfig a c = .ok p) :
    ∃ ns l, c.nodes = some ns ∧ List.Forall₂ (fun n q => nodeAddr n = .ok q) ns l ∧ ns ≠ [] ∧
      p = ⟨l.map Prod.fst, l.map Prod.snd, ns.length, if (c.devices.getD []).any (fun d => isSpu d.2) then
          some (spuAddrs ((given a.spuBasePort).getD ((l.map Prod.snd).headD 0 + 1000)) ns) else none⟩ := by
  unfold fromConfig at h
  cases hn : c.nodes with
  | none => rw [hn] at h; cases h
  | some ns =>
    rw [hn] at h
    cases ns with
    | nil => cases h
    | cons n ns =>
      simp only [Option.getD_some] at h
      cases hm : mapE nodeAddr (n :: ns) with
      | error e => rw [hm] at h; cases h
      | ok l => rw [hm] at h; exact ⟨n :: ns, l, rfl, mapE_ok hm, by simp, (Except.ok.inj h).symm⟩

theorem config_good {a : Args J} {c : Config J} {p : Plan} (h : fromConfig a c = .ok p) : p.Good := by
  obtain ⟨ns, l, _, h2, _, rfl⟩ := fromConfig_ok h
  refine ⟨by simp [h2.length_eq], ?_⟩
  simp only
  rw [List.forall₂_map_left_iff, List.forall₂_map_right_iff, List.forall₂_same]
  intro q hq
  obtain ⟨i, hi, rfl⟩ := List.mem_iff_getElem.1 hq
  have := (List.forall₂_iff_get.1 h2).2 i (by rw [h2.length_eq]; exact hi) hi
  obtain ⟨_, _, _, h5⟩ := nodeAddr_ok this
  exact h5

theorem override_ok {s : Option String} {p p' : Plan} (h : override s p = .ok p') (hp : p.Good) :
    p'.Good ∧ p'.spu = p.spu ∧ (s = none ∨ s = some "" → p' = p) := by
  unfold override at h
  cases s with
  | none => cases h; exact ⟨hp, rfl, fun _ => rfl⟩
  | some s =>
    simp only at h
    split at h
    · next hs => subst hs; cases h; exact ⟨hp, rfl, fun _ => rfl⟩
    · next hs =>
      cases hm : mapE portOf (listed s) with
      | error e => rw [hm] at h; cases h
      | ok ports =>
        rw [hm] at h
        cases h
        refine ⟨⟨rfl, ?_⟩, rfl, by simp [hs]⟩
        have hf := mapE_ok hm
        simp only
        unfold listed at hf ⊢
        rw [List.forall₂_map_left_iff] at hf ⊢
        exact hf.imp fun _ _ hh => port_names hh

theorem build_good {a : Args J} {p : Plan} (h : buildEndpoints a = .ok p) : p.Good := by
  unfold buildEndpoints at h
  cases hc : a.config with
  | none => rw [hc] at h; exact (override_ok h (flags_good a)).1
  | some c =>
    rw [hc] at h
    simp only at h
    cases hf : fromConfig a c with
    | error e => rw [hf] at h; cases h
    | ok q => rw [hf] at h; exact (override_ok h (config_good hf)).1

theorem cmdWorker_ok {a : Args J} {r : Int} {w : Worker} (h : cmdWorker a r = .ok w) :
    ∃ p, buildEndpoints a = .ok p ∧ 0 ≤ r ∧ r < p.worldSize ∧ w = p.worker r.toNat := by
  unfold cmdWorker at h
  cases hb : buildEndpoints a with
  | error e => rw [hb] at h; cases h
  | ok p =>
    rw [hb] at h
    simp only at h
    split at h
    · cases h
    · next hr => exact ⟨p, rfl, by omega, by omega, (Except.ok.inj h).symm⟩

/-! ## Workers -/

/-- **C119, workers find each other.**  Workers started with the same flags or the same config file are given the same list of addresses
and the same SPU addresses, one address per rank; and the address every worker has for rank `s` names the port on which the worker of
rank `s` listens. -/
theorem workers_find_each_other (a : Args J) (r s : Int) (w v : Worker) (hw : cmdWorker a r = .ok w) (hv : cmdWorker a s = .ok v) :
    w.endpoints = v.endpoints ∧ w.spu = v.spu ∧ w.worldSize = v.worldSize ∧ w.worldSize = w.endpoints.length ∧ (v.rank : Int) = s ∧
      ∃ u, w.endpoints[v.rank]? = some u ∧ Names u v.port := by
  obtain ⟨p, hp, _, _, rfl⟩ := cmdWorker_ok hw
  obtain ⟨q, hq, h1, h2, rfl⟩ := cmdWorker_ok hv
  rw [hp] at hq
  cases hq
  have hg := build_good hp
  refine ⟨rfl, rfl, rfl, hg.size, by simp [Plan.worker, Int.toNat_of_nonneg h1], ?_⟩
  have hlt : s.toNat < p.endpoints.length := by rw [← hg.size]; omega
  have hlt' : s.toNat < p.ports.length := by rw [← hg.ports.length_eq]; exact hlt
  refine ⟨p.endpoints[s.toNat], List.getElem?_eq_getElem hlt, ?_⟩
  have := (List.forall₂_iff_get.1 hg.ports).2 s.toNat hlt hlt'
  simp only [Plan.worker, List.getD_eq_getElem?_getD, List.getElem?_eq_getElem hlt', Option.getD_some]
  exact this

/-- **C119, `up` is one `worker` per rank.**  `up` starts, in rank order, the workers that `worker --rank` would start with the same flags,
for every rank for which that command does not raise; other ranks are refused. -/
theorem up_starts_all_workers (a : Args J) (ws : List Worker) (h : cmdUp a = .ok ws) :
    (∀ r : Nat, r < ws.length → ∃ w, ws[r]? = some w ∧ cmdWorker a r = .ok w ∧ w.rank = r) ∧
    ∀ r : Int, r < 0 ∨ ws.length ≤ r → cmdWorker a r = .error .valueError := by
  unfold cmdUp at h
  cases hb : buildEndpoints a with
  | error e => rw [hb] at h; cases h
  | ok p =>
    rw [hb] at h
    cases h
    simp only [List.length_map, List.length_range]
    constructor
    · intro r hr
      refine ⟨p.worker r, by simp [hr], ?_, rfl⟩
      unfold cmdWorker
      rw [hb]
      simp only
      rw [if_neg (by omega)]
      simp
    · intro r hr
      unfold cmdWorker
      rw [hb]
      simp only
      rw [if_pos (by omega)]

/-- Two nodes, the second with a scheme: rank 0 listens on 8100 and has for rank 1 an address that names 9200, where rank 1 listens. -/
example : let a : Args Nat := { config := some ⟨none, some [⟨some "a", some "10.0.0.1:8100", none⟩, ⟨some "b", some "https://b:9200", none⟩], none⟩ }
    ∃ w v, cmdWorker a 0 = .ok w ∧ cmdWorker a 1 = .ok v ∧ w.port = 8100 ∧ v.port = 9200 ∧
      w.endpoints = ["http://10.0.0.1:8100", "https://b:9200"] ∧ cmdUp a = .ok [w, v] ∧ cmdWorker a 2 = .error .valueError := by
  refine ⟨⟨0, 2, 8100, ["http://10.0.0.1:8100", "https://b:9200"], none⟩, ⟨1, 2, 9200, ["http://10.0.0.1:8100", "https://b:9200"], none⟩, ?_⟩
  decide +kernel

/-! ## The driver -/

theorem isPrefixOf_iff (a b : List Char) : a.isPrefixOf b = true ↔ a <+: b := List.isPrefixOf_iff_prefix

theorem driver_normalize (ep : String) (h : HasScheme (normalize ep)) : driverUrl ep = normalize ep := by
  unfold normalize at h ⊢
  unfold driverUrl
  by_cases hp : "http".toList.isPrefixOf ep.toList = true
  · rw [if_pos hp] at h ⊢
    rw [if_pos]
    rw [Bool.or_eq_true, isPrefixOf_iff, isPrefixOf_iff]
    exact h
  · rw [if_neg hp] at h ⊢
    rw [if_neg]
    rw [Bool.or_eq_true, isPrefixOf_iff, isPrefixOf_iff]
    rw [isPrefixOf_iff] at hp
    rintro (h1 | h1)
    · exact hp (List.IsPrefix.trans ⟨"://".toList, rfl⟩ h1)
    · exact hp (List.IsPrefix.trans ⟨"s://".toList, rfl⟩ h1)

theorem driver_keeps (u : String) (h : HasScheme u) : driverUrl u = u := by
  unfold driverUrl
  rw [if_pos]
  rw [Bool.or_eq_true, isPrefixOf_iff, isPrefixOf_iff]
  exact h

/-- the endpoints of a loaded cluster are those of the nodes, in order -/
theorem fromDict_endpoints (k : Consts J) (c : Config J) (s : Spec J) (h : fromDict k c = .ok s) :
    ∃ ns, c.nodes = some ns ∧ (Device.endpoints s).map some = ns.map (·.endpoint) := by
  obtain ⟨hs, ns, h1, h2, h3, h4⟩ := fromDict_sound k c s h
  refine ⟨ns, h1, ?_⟩
  obtain ⟨e1, e2⟩ := endpoints_by_rank s hs
  rw [← h4]
  apply List.ext_getElem?
  intro i
  by_cases hi : i < s.nodes.length
  · have hr : s.nodes[i].2.rank = i := by
      have : (s.nodes.map fun e => e.2.rank)[i]? = (List.range ns.length)[i]? := by rw [h3]
      rw [List.getElem?_range (by omega), List.getElem?_map, List.getElem?_eq_getElem hi] at this
      exact Option.some.inj this
    have := e2 _ (List.getElem_mem hi)
    rw [hr] at this
    rw [List.getElem?_map, this, List.getElem?_map, List.getElem?_eq_getElem hi]
    rfl
  · rw [List.getElem?_eq_none (by simp [e1]; omega), List.getElem?_eq_none (by simp; omega)]

theorem cmdRun_config {k : Consts J} {a : Args J} {c : Config J} {s : Spec J} {eps : List String} (hc : a.config = some c) (h : fromDict k c = .ok s)
    (he : (c.nodes.getD []).map (·.endpoint) = eps.map some) : cmdRun k a = .ok (eps.map driverUrl) := by
  obtain ⟨ns, h1, h2⟩ := fromDict_endpoints k c s h
  rw [h1] at he
  simp only [Option.getD_some] at he
  rw [he] at h2
  have := (List.map_injective_iff.2 (fun (a b : String) (h : some a = some b) => Option.some.inj h)) h2
  unfold cmdRun
  rw [hc]
  simp only
  rw [h]
  simp only
  rw [this]

/-- **C119, the driver finds the workers (partial).**  When every address begins with a scheme as the workers write it and a config file is
not combined with `--endpoints`, the driver started by `run` with the same flags has, rank by rank, the addresses the workers have. -/
theorem driver_finds_workers_partial (k : Consts J) (a : Args J) (r : Int) (w : Worker) (urls : List String) (hw : cmdWorker a r = .ok w)
    (hr : cmdRun k a = .ok urls) (hflag : a.config.isSome → a.endpoints = none ∨ a.endpoints = some "") (hs : ∀ u ∈ w.endpoints, HasScheme u) :
    urls = w.endpoints := by
  obtain ⟨p, hp, _, _, rfl⟩ := cmdWorker_ok hw
  have hg := build_good hp
  simp only [Plan.worker] at hs ⊢
  unfold cmdRun at hr
  cases hc : a.config with
  | none =>
    rw [hc, hp] at hr
    simp only at hr
    obtain ⟨s, h1, _, _, h4⟩ := simple_sound k.na k.na k.emptyDict k.emptyDict k.emptyDict (fun i => p.endpoints.getD i "") p.worldSize p.worldSize (by omega)
    rw [h1] at hr
    cases hr
    rw [h4, hg.size]
    apply List.ext_getElem
    · simp
    · intro i h5 h6
      simp only [List.getElem_map, List.getElem_range, List.getD_eq_getElem?_getD, List.getElem?_eq_getElem h6, Option.getD_some]
      exact driver_keeps _ (hs _ (List.getElem_mem h6))
  | some c =>
    rw [hc] at hr
    simp only at hr
    cases hd : fromDict k c with
    | error e => rw [hd] at hr; cases hr
    | ok s =>
      rw [hd] at hr
      cases hr
      obtain ⟨ns, h1, h2⟩ := fromDict_endpoints k c s hd
      unfold buildEndpoints at hp
      rw [hc] at hp
      simp only at hp
      cases hf : fromConfig a c with
      | error e => rw [hf] at hp; cases hp
      | ok q =>
        rw [hf] at hp
        have hq := (override_ok hp (config_good hf)).2.2 (hflag (by rw [hc]; rfl))
        subst hq
        obtain ⟨ns', l, g1, g2, _, g4⟩ := fromConfig_ok hf
        rw [h1] at g1
        cases g1
        have he : p.endpoints = l.map Prod.fst := by rw [g4]
        rw [he] at hs ⊢
        have hlen : (Device.endpoints s).length = l.length := by
          have := congrArg List.length h2
          simp only [List.length_map] at this
          rw [this, g2.length_eq]
        apply List.ext_getElem
        · simp [hlen]
        · intro i h5 h6
          simp only [List.length_map] at h5 h6
          simp only [List.getElem_map]
          have hi : i < ns.length := by rw [g2.length_eq]; exact h6
          have hx := (List.forall₂_iff_get.1 g2).2 i hi h6
          obtain ⟨ep, e1, e2, _⟩ := nodeAddr_ok hx
          have hep : (Device.endpoints s)[i] = ep := by
            have : ((Device.endpoints s).map some)[i]? = (ns.map (·.endpoint))[i]? := by rw [h2]
            simp only [List.getElem?_map, List.getElem?_eq_getElem h5, List.getElem?_eq_getElem hi, Option.map_some, Option.some.injEq] at this
            simp only [List.get_eq_getElem] at e1
            rw [e1] at this
            exact Option.some.inj this
          rw [hep]
          simp only [List.get_eq_getElem] at e2
          rw [e2]
          refine driver_normalize ep ?_
          rw [← e2]
          exact hs _ (by rw [List.mem_map]; exact ⟨l[i], List.getElem_mem h6, rfl⟩)

/-- constants of a small example -/
def toyConsts : Consts Nat := { na := 9, emptyDict := 0, falsy := fun j => j = 0 }

/-- The hypotheses hold for two nodes of which one has a scheme. -/
example : let a : Args Nat := { config := some ⟨none, some [⟨some "a", some "10.0.0.1:8100", none⟩, ⟨some "b", some "https://b:9200", none⟩], some []⟩ }
    ∃ w, cmdWorker a 0 = .ok w ∧ cmdRun toyConsts a = .ok ["http://10.0.0.1:8100", "https://b:9200"] ∧
      w.endpoints = ["http://10.0.0.1:8100", "https://b:9200"] ∧ "http://".toList <+: "http://10.0.0.1:8100".toList ∧ "https://".toList <+: "https://b:9200".toList := by
  refine ⟨⟨0, 2, 8100, ["http://10.0.0.1:8100", "https://b:9200"], none⟩, by decide +kernel,
    (cmdRun_config (eps := ["10.0.0.1:8100", "https://b:9200"]) rfl rfl rfl).trans (by decide +kernel), rfl, ⟨"10.0.0.1:8100".toList, by decide⟩, ⟨"b:9200".toList, by decide⟩⟩

/-- **C119, the driver finds the workers (violated).**  With a config file and `--endpoints` together the workers follow the flag and the
driver follows the file; and a host whose name begins with `http` is taken for a URL by the workers but not by the driver. -/
theorem driver_finds_workers_violated :
    (∃ (a : Args Nat) (w : Worker) (urls : List String), cmdWorker a 0 = .ok w ∧ cmdRun toyConsts a = .ok urls ∧
      w.endpoints = ["http://c:7000"] ∧ urls = ["http://a:8100"]) ∧
    ∃ (a : Args Nat) (w : Worker) (urls : List String), a.endpoints = none ∧ cmdWorker a 0 = .ok w ∧ cmdRun toyConsts a = .ok urls ∧
      w.endpoints = ["httpd1:8100"] ∧ urls = ["http://httpd1:8100"] := by
  refine ⟨⟨{ config := some ⟨none, some [⟨some "a", some "a:8100", none⟩], some []⟩, endpoints := some "c:7000" },
    ⟨0, 1, 7000, ["http://c:7000"], none⟩, _, by decide +kernel, by decide +kernel, rfl, rfl⟩,
    ⟨{ config := some ⟨none, some [⟨some "a", some "httpd1:8100", none⟩], some []⟩ }, ⟨0, 1, 8100, ["httpd1:8100"], none⟩, _, rfl, by decide +kernel, by decide +kernel, rfl, rfl⟩⟩

/-- **C119, `status` asks the workers.** -/
theorem status_asks_workers (a : Args J) (r : Int) (w : Worker) (hw : cmdWorker a r = .ok w) : cmdStatus a = .ok w.endpoints := by
  obtain ⟨p, hp, _, _, rfl⟩ := cmdWorker_ok hw
  unfold cmdStatus
  rw [hp]
  rfl

theorem build_port_free {a : Args J} (h : a.config.isSome) (b : Option Nat) : buildEndpoints { a with basePort := b } = buildEndpoints a := by
  unfold buildEndpoints
  cases hc : a.config with
  | none => rw [hc] at h; cases h
  | some c => rfl

/-- **C119, `objects` asks the workers (partial)**: when the cluster is given by a config file. -/
theorem objects_asks_workers_partial (a : Args J) (hc : a.config.isSome) (r : Int) (w : Worker) (hw : cmdWorker a r = .ok w) :
    cmdObjects a = .ok w.endpoints := by
  obtain ⟨p, hp, _, _, rfl⟩ := cmdWorker_ok hw
  have hg := build_good hp
  unfold cmdObjects
  rw [build_port_free hc, hp]
  simp only [Except.ok.injEq, Plan.worker]
  apply List.ext_getElem
  · simp [hg.size]
  · intro i h1 h2
    simp [List.getD_eq_getElem?_getD, List.getElem?_eq_getElem h2]

/-- **C119, `objects` asks the workers (violated)**: without a config file it looks for them at port 5000, whatever the ports of `up`. -/
theorem objects_asks_workers_violated : ∃ ws us, cmdUp ({ worldSize := 2 } : Args Nat) = .ok ws ∧ cmdObjects ({ worldSize := 2 } : Args Nat) = .ok us ∧
    ws.map (·.port) = [8100, 8101] ∧ us = ["http://127.0.0.1:5000", "http://127.0.0.1:5001"] :=
  ⟨_, _, rfl, rfl, rfl, by decide +kernel⟩

example : ({ config := some ⟨none, some [⟨some "a", some "a:8100", none⟩], none⟩ } : Args Nat).config.isSome ∧
    cmdObjects ({ config := some ⟨none, some [⟨some "a", some "a:8100", none⟩], none⟩ } : Args Nat) = .ok ["http://a:8100"] := by
  refine ⟨rfl, ?_⟩
  rfl

end Verif.Tool.Cli
