import Verif.Tool.CliProps
/-!
# Clusters on the command line: generated files, SPU addresses, stopping (C119, C120)
-/
namespace Verif.Tool.Cli
open Verif.Device
open Verif.Store (lookup)

variable {J : Type}

/-! ## Generated config files -/

theorem toDigits_split (pre : List Char) (n : Nat) (h : ':' ∉ n.repr.toList) :
    (splitOn ':' (pre ++ ':' :: n.repr.toList)).getLastD [] = n.repr.toList := by
  obtain ⟨q, ⟨h1, h2⟩, h3⟩ := splitOn_last ':' (pre ++ ':' :: n.repr.toList)
  generalize hw : (splitOn ':' (pre ++ ':' :: n.repr.toList)).getLastD [] = w at h1 h3
  rcases h2 with rfl | ⟨t, rfl⟩
  · exfalso; apply h3; rw [List.nil_append] at h1; rw [← h1]; simp
  · -- both parts end the text, neither contains a colon
    rw [List.append_assoc, List.singleton_append] at h1
    have key : ∀ (a b x y : List Char), ':' ∉ x → ':' ∉ y → a ++ ':' :: x = b ++ ':' :: y → x = y := by
      intro a
      induction a with
      | nil =>
        intro b x y hx hy e
        cases b with
        | nil => simpa using e
        | cons c b => simp only [List.nil_append, List.cons_append, List.cons.injEq] at e; exact absurd (e.2 ▸ hx) (by simp)
      | cons c a ih =>
        intro b x y hx hy e
        cases b with
        | nil => simp only [List.nil_append, List.cons_append, List.cons.injEq] at e; exact absurd (e.2.symm ▸ hy) (by simp)
        | cons d b => simp only [List.cons_append, List.cons.injEq] at e; exact ih b x y hx hy e.2
    exact (key _ _ _ _ h h3 h1).symm

theorem no_colon (n : Nat) : ':' ∉ n.repr.toList := fun h => absurd (Base.repr_isDigit h) (by decide)

theorem int?_repr (n : Nat) : int? n.repr.toList = .ok n := by
  unfold int?
  rw [if_pos ⟨Base.repr_ne_nil n, by rw [List.all_eq_true]; exact fun c h => Base.repr_isDigit h⟩]
  rw [Nat.toList_repr, Nat.ofDigitChars_toDigits (by decide) (by decide)]

theorem portOf_repr (pre : String) (n : Nat) : portOf (pre ++ ":" ++ n.repr) = .ok n := by
  unfold portOf
  rw [String.toList_append, String.toList_append, List.append_assoc, show ":".toList ++ n.repr.toList = ':' :: n.repr.toList from rfl,
    toDigits_split _ _ (no_colon n)]
  exact int?_repr n

theorem normalize_local (n : Nat) : normalize ("127.0.0.1:" ++ n.repr) = "http://127.0.0.1:" ++ n.repr := by
  unfold normalize
  rw [if_neg]
  · rw [← String.append_assoc]; rfl
  · rw [isPrefixOf_iff, String.toList_append]
    rintro ⟨t, ht⟩
    have : "http".toList = 'h' :: "ttp".toList := rfl
    rw [this, show "127.0.0.1:".toList = '1' :: "27.0.0.1:".toList from rfl] at ht
    simp only [List.cons_append, List.cons.injEq] at ht
    exact absurd ht.1 (by decide)

theorem driverUrl_local (n : Nat) : driverUrl ("127.0.0.1:" ++ n.repr) = "http://127.0.0.1:" ++ n.repr := by
  rw [driver_normalize _ (.inl ?_), normalize_local]
  rw [normalize_local, String.toList_append]
  exact ⟨"127.0.0.1:".toList ++ n.repr.toList, by rw [← List.append_assoc]; rfl⟩

/-- the nodes of a generated config -/
def genNode (p i : Nat) : NodeCfg J := ⟨some ("node_" ++ i.repr), some ("127.0.0.1:" ++ (p + i).repr), none⟩

theorem gen_addr (p i : Nat) : nodeAddr (genNode (J := J) p i) = .ok ("http://127.0.0.1:" ++ (p + i).repr, p + i) := by
  have h : portOf ("http://127.0.0.1:" ++ (p + i).repr) = .ok (p + i) := portOf_repr "http://127.0.0.1" (p + i)
  simp only [nodeAddr, genNode, normalize_local, h]

theorem gen_fromConfig (a : Args J) (cfg : J) (w p : Nat) (s : Option Nat) (hw : 0 < w) : ∃ spu, fromConfig a (genConfig cfg w p s) =
    .ok ⟨(List.range w).map fun i => "http://127.0.0.1:" ++ (p + i).repr, (List.range w).map (p + ·), w, spu⟩ := by
  have hm : mapE nodeAddr ((List.range w).map (genNode (J := J) p)) = .ok ((List.range w).map fun i => ("http://127.0.0.1:" ++ (p + i).repr, p + i)) := by
    refine mapE_of ?_
    rw [List.forall₂_map_left_iff, List.forall₂_map_right_iff, List.forall₂_same]
    exact fun i _ => gen_addr p i
  have hn : (genConfig cfg w p s).nodes = some ((List.range w).map (genNode (J := J) p)) := rfl
  unfold fromConfig
  rw [hn]
  simp only [Option.getD_some]
  cases hl : (List.range w).map (genNode (J := J) p) with
  | nil =>
    have := congrArg List.length hl
    simp at this
    omega
  | cons x xs =>
    simp only
    rw [← hl, hm]
    simp only [List.map_map, List.length_map, List.length_range]
    exact ⟨_, rfl⟩

/-- a generated cluster's node -/
def genSpecNode (k : Consts J) (p i : Nat) : String × Node J :=
  ("node_" ++ i.repr, ⟨"node_" ++ i.repr, i, "127.0.0.1:" ++ (p + i).repr, parseRuntime k none⟩)

theorem gen_nodes_aux (k : Consts J) (p w j : Nat) (hj : j ≤ w) :
    parseNodes k (w - j) ((List.range (w - j)).map (genSpecNode k p)) ((List.range' (w - j) j).map (genNode p)) = .ok ((List.range w).map (genSpecNode k p)) := by
  induction j with
  | zero => simp [parseNodes]
  | succ j ih =>
    rw [List.range'_succ, List.map_cons, parseNodes.eq_def]
    simp only [genNode]
    have hno : (lookup ("node_" ++ (w - (j + 1)).repr) ((List.range (w - (j + 1))).map (genSpecNode k p))).isSome = false := by
      rw [Bool.eq_false_iff]
      intro h
      rw [lookup_isSome_iff, List.map_map] at h
      obtain ⟨i, hi, e⟩ := List.mem_map.1 h
      have := Base.append_repr_inj e
      rw [List.mem_range] at hi
      omega
    rw [if_neg (by rw [hno]; simp)]
    have e1 : (List.range (w - (j + 1))).map (genSpecNode k p) ++ [("node_" ++ (w - (j + 1)).repr,
        (⟨"node_" ++ (w - (j + 1)).repr, w - (j + 1), "127.0.0.1:" ++ (p + (w - (j + 1))).repr, parseRuntime k none⟩ : Node J))] =
        (List.range (w - j)).map (genSpecNode k p) := by
      rw [show w - j = (w - (j + 1)) + 1 by omega, List.range_succ, List.map_append]
      rfl
    rw [e1, show w - (j + 1) + 1 = w - j by omega]
    exact ih (by omega)

theorem gen_nodes (k : Consts J) (p w : Nat) : parseNodes k 0 [] ((List.range w).map (genNode p)) = .ok ((List.range w).map (genSpecNode k p)) := by
  have := gen_nodes_aux k p w w (by omega)
  simpa [List.range_eq_range'] using this

theorem gen_lookup (k : Consts J) (p w i : Nat) (hi : i < w) : lookup ("node_" ++ i.repr) ((List.range w).map (genSpecNode k p)) = some (genSpecNode k p i).2 := by
  refine Verif.Store.mem_lookup ?_ (List.mem_map.2 ⟨i, List.mem_range.2 hi, rfl⟩)
  show (List.map Prod.fst _).Nodup
  rw [List.map_map]
  refine List.Nodup.map_on (fun a _ b _ hab => ?_) List.nodup_range
  exact Base.append_repr_inj hab

theorem gen_members (k : Consts J) (p w : Nat) (l : List Nat) (h : ∀ i ∈ l, i < w) :
    parseMembers ((List.range w).map (genSpecNode k p)) (l.map fun i => "node_" ++ i.repr) = .ok (l.map fun i => (genSpecNode k p i).2) := by
  induction l with
  | nil => rfl
  | cons i l ih =>
    simp only [List.map_cons, parseMembers]
    rw [gen_lookup k p w i (h i (by simp)), ih fun j hj => h j (by simp [hj])]
    rfl

theorem devices_append (k : Consts J) (nodes : List (String × Node J)) (a b : List (String × DeviceCfg J)) (x y : List (String × Device J))
    (ha : parseDevices k nodes a = .ok x) (hb : parseDevices k nodes b = .ok y) : parseDevices k nodes (a ++ b) = .ok (x ++ y) := by
  induction a generalizing x with
  | nil => cases ha; exact hb
  | cons d a ih =>
    obtain ⟨name, c⟩ := d
    simp only [List.cons_append, parseDevices] at ha ⊢
    cases hm : c.members with
    | none => rw [hm] at ha; cases ha
    | some ms =>
      rw [hm] at ha
      simp only at ha ⊢
      cases hp : parseMembers nodes ms with
      | error e => rw [hp] at ha; cases ha
      | ok members =>
        rw [hp] at ha
        simp only at ha ⊢
        cases hk : c.kind with
        | none => rw [hk] at ha; cases ha
        | some kind =>
          rw [hk] at ha
          simp only at ha ⊢
          cases hd : parseDevices k nodes a with
          | error e => rw [hd] at ha; cases ha
          | ok x' =>
            rw [hd] at ha
            simp only [Except.map, Except.ok.injEq] at ha
            rw [ih x' hd, ← ha]
            rfl

theorem gen_ppus (k : Consts J) (p w : Nat) (l : List Nat) (h : ∀ i ∈ l, i < w) :
    parseDevices k ((List.range w).map (genSpecNode k p)) (l.map fun i => ("P" ++ i.repr, ⟨some "ppu", some ["node_" ++ i.repr], none⟩)) =
      .ok (l.map fun i => ("P" ++ i.repr, ⟨"P" ++ i.repr, "ppu", [(genSpecNode k p i).2], k.emptyDict⟩)) := by
  induction l with
  | nil => rfl
  | cons i l ih =>
    simp only [List.map_cons, parseDevices]
    have := gen_members k p w [i] (by simpa using h i (by simp))
    simp only [List.map_cons, List.map_nil] at this
    rw [this, ih fun j hj => h j (by simp [hj])]
    rfl

theorem gen_spec (k : Consts J) (cfg : J) (w p : Nat) (s : Option Nat) : ∃ sp, fromDict k (genConfig cfg w p s) = .ok sp := by
  have hn : (genConfig cfg w p s).nodes = some ((List.range w).map (genNode p)) := rfl
  have hd : ∃ y, parseDevices k ((List.range w).map (genSpecNode k p)) (((match given s with
      | none => []
      | some _ => [("SPU0", ⟨some "SPU", some ((List.range w).map fun i => "node_" ++ i.repr), some cfg⟩)]) : List (String × DeviceCfg J))) = .ok y ∧
      ∀ e ∈ y, e.1 = e.2.name ∧ (∀ m ∈ e.2.members, ∃ i, i < w ∧ m = (genSpecNode k p i).2) ∧ lower e.2.kind ≠ "ppu".toList := by
    cases given s with
    | none => exact ⟨[], rfl, by simp⟩
    | some b =>
      refine ⟨[("SPU0", ⟨"SPU0", "SPU", (List.range w).map fun i => (genSpecNode k p i).2, cfg⟩)], ?_, ?_⟩
      · simp only [parseDevices]
        rw [gen_members k p w (List.range w) (by simp)]
        rfl
      · intro e he
        simp only [List.mem_singleton] at he
        subst he
        refine ⟨rfl, ?_, show lower "SPU" ≠ "ppu".toList from by decide⟩
        intro m hm
        obtain ⟨i, hi, rfl⟩ := List.mem_map.1 hm
        exact ⟨i, List.mem_range.1 hi, rfl⟩
  obtain ⟨y, hy, hy'⟩ := hd
  have hall := devices_append k _ _ _ _ _ (gen_ppus k p w (List.range w) (by simp)) hy
  have hdv : (genConfig cfg w p s).devices = some ((List.range w).map (fun i => ("P" ++ i.repr, ⟨some "ppu", some ["node_" ++ i.repr], none⟩)) ++
      match given s with
      | none => []
      | some _ => [("SPU0", ⟨some "SPU", some ((List.range w).map fun i => "node_" ++ i.repr), some cfg⟩)]) := rfl
  unfold fromDict
  rw [hn, hdv]
  simp only
  rw [gen_nodes]
  simp only
  rw [hall]
  simp only
  refine (accepts_iff _).2 ⟨?_, ?_, ?_, ?_⟩
  · intro e he
    obtain ⟨i, _, rfl⟩ := List.mem_map.1 he
    rfl
  · intro e he
    rcases List.mem_append.1 he with he | he
    · obtain ⟨i, _, rfl⟩ := List.mem_map.1 he; rfl
    · exact (hy' e he).1
  · intro e he m hm
    rcases List.mem_append.1 he with he | he
    · obtain ⟨i, hi, rfl⟩ := List.mem_map.1 he
      simp only [List.mem_singleton] at hm
      subst hm
      exact ⟨_, gen_lookup k p w i (List.mem_range.1 hi)⟩
    · obtain ⟨i, hi, rfl⟩ := (hy' e he).2.1 m hm
      exact ⟨_, gen_lookup k p w i hi⟩
  · intro e he hk
    rcases List.mem_append.1 he with he | he
    · obtain ⟨i, hi, rfl⟩ := List.mem_map.1 he; rfl
    · exact absurd hk (hy' e he).2.2

/-- **C119, generated config files work.**  From the file written by `config gen -w w -p p`, `worker --rank r` starts a worker listening on
port `p + r` for each of the `w` ranks, with the addresses that the flags `-w w -p p` give, and `run` builds a driver with the same
addresses. -/
theorem generated_config (k : Consts J) (cfg : J) (w p : Nat) (s : Option Nat) (r : Nat) (hr : r < w) :
    ∃ x y, cmdWorker ({ config := some (genConfig cfg w p s) } : Args J) r = .ok x ∧
      cmdWorker ({ worldSize := w, basePort := some p } : Args J) r = .ok y ∧ x.port = p + r ∧ y.port = p + r ∧ x.endpoints = y.endpoints ∧
      cmdRun k ({ config := some (genConfig cfg w p s) } : Args J) = .ok x.endpoints ∧
      x.endpoints = (List.range w).map fun i => "http://127.0.0.1:" ++ (p + i).repr := by
  obtain ⟨spu, hc⟩ := gen_fromConfig ({ config := some (genConfig cfg w p s) } : Args J) cfg w p s (by omega)
  have hp : ((List.range w).map (p + ·)).getD r 0 = p + r := by simp [List.getD_eq_getElem?_getD, hr]
  refine ⟨⟨r, w, p + r, (List.range w).map fun i => "http://127.0.0.1:" ++ (p + i).repr, spu⟩,
    ⟨r, w, p + r, (List.range w).map fun i => "http://127.0.0.1:" ++ (p + i).repr, none⟩, ?_, ?_, rfl, rfl, rfl, ?_, rfl⟩
  · simp only [cmdWorker, buildEndpoints, hc, override]
    rw [if_neg (by omega)]
    simp only [Plan.worker, Int.toNat_natCast, hp]
  · simp only [cmdWorker, buildEndpoints, override, fromFlags, Option.getD_some, given, Option.map_none]
    rw [if_neg (by omega)]
    simp only [Plan.worker, Int.toNat_natCast, hp]
  · obtain ⟨sp, hsp⟩ := gen_spec k cfg w p s
    rw [cmdRun_config (eps := (List.range w).map fun i => "127.0.0.1:" ++ (p + i).repr) rfl hsp]
    · rw [List.map_map]
      simp only [Function.comp_def, driverUrl_local]
    · simp [genConfig]

example : ∃ x, cmdWorker ({ config := some (genConfig 0 3 8100 (some 9000)) } : Args Nat) (2 : Nat) = .ok x ∧ x.port = 8102 := by
  obtain ⟨x, _, h, _, h2, _⟩ := generated_config toyConsts 0 3 8100 (some 9000) 2 (by decide)
  exact ⟨x, h, h2⟩

/-! ## SPU addresses -/

/-- **C119, SPU addresses (partial).**  For a config file with an SPU device whose nodes are written `host:port` without a scheme, all
workers are given for rank `i` the address `hostᵢ:(base + i)` with one `base`, which is the flag's value if the flag is given and otherwise
the first node's port plus 1000. -/
theorem spu_addresses_partial (a : Args J) (c : Config J) (ns : List (NodeCfg J)) (r : Int) (w : Worker) (hw : cmdWorker a r = .ok w)
    (hc : a.config = some c) (hn : c.nodes = some ns) (hspu : ∃ d ∈ c.devices.getD [], isSpu d.2 = true)
    (hosts : Nat → String) (hosts_ok : ∀ i, ':' ∉ (hosts i).toList) (hep : ∀ (i : Nat) n, ns[i]? = some n → ∃ pt, n.endpoint = some (hosts i ++ ":" ++ pt)) :
    ∃ l base, w.spu = some l ∧ l.length = ns.length ∧ (∀ (i : Nat), i < ns.length → l[i]? = some (i, hosts i ++ ":" ++ (base + i).repr)) ∧
      (∀ b, a.spuBasePort = some b → 0 < b → base = b) := by
  obtain ⟨p, hp, _, _, rfl⟩ := cmdWorker_ok hw
  unfold buildEndpoints at hp
  rw [hc] at hp
  simp only at hp
  cases hf : fromConfig a c with
  | error e => rw [hf] at hp; cases hp
  | ok q =>
    rw [hf] at hp
    have hs := (override_ok hp (config_good hf)).2.1
    obtain ⟨ns', l, g1, _, _, g4⟩ := fromConfig_ok hf
    rw [hn] at g1
    cases g1
    rw [if_pos (List.any_eq_true.2 hspu)] at g4
    refine ⟨spuAddrs ((given a.spuBasePort).getD ((l.map Prod.snd).headD 0 + 1000)) ns,
      (given a.spuBasePort).getD ((l.map Prod.snd).headD 0 + 1000), ?_, by simp [spuAddrs], fun i hi => ?_, ?_⟩
    · simp only [Plan.worker]
      rw [hs, g4]
    · unfold spuAddrs
      obtain ⟨pt, hpt⟩ := hep i _ (List.getElem?_eq_getElem hi)
      have hh : hostOf (hosts i ++ ":" ++ pt) = hosts i := by
        unfold hostOf
        rw [String.toList_append, String.toList_append, List.append_assoc, show ":".toList ++ pt.toList = ':' :: pt.toList from rfl,
          splitOn_head _ _ _ (hosts_ok i), String.ofList_toList]
      simp only [List.getElem?_map, List.getElem?_zipIdx, List.getElem?_eq_getElem hi, Option.map_some, hpt, Option.getD_some, hh, Nat.zero_add]
    · intro b hb hpos
      rw [hb]
      cases b with
      | zero => omega
      | succ b => rfl

/-- addresses for different ranks are different -/
theorem spu_addresses_distinct (h1 h2 : String) (base i j : Nat) (hi : ':' ∉ h1.toList) (hj : ':' ∉ h2.toList)
    (h : h1 ++ ":" ++ (base + i).repr = h2 ++ ":" ++ (base + j).repr) : i = j := by
  have e1 := portOf_repr h1 (base + i)
  rw [h, portOf_repr] at e1
  have := Except.ok.inj e1
  omega

/-- Two nodes, an SPU and a flag: the addresses use the hosts and the flag's port. -/
example : let a : Args Nat := { config := some ⟨none, some [⟨some "a", some "10.0.0.1:8100", none⟩, ⟨some "b", some "b:9200", none⟩], some [("S", ⟨some "spu", none, none⟩)]⟩, spuBasePort := some 20000 }
    ∃ w, cmdWorker a 0 = .ok w ∧ w.spu = some [(0, "10.0.0.1:20000"), (1, "b:20001")] := by
  refine ⟨⟨0, 2, 8100, ["http://10.0.0.1:8100", "http://b:9200"], some [(0, "10.0.0.1:20000"), (1, "b:20001")]⟩, ?_⟩
  decide +kernel

/-- **C119, the `--spu-endpoints` flag has no effect** on any command. -/
theorem spu_flag_ignored (k : Consts J) (a : Args J) (s : Option String) (r : Int) :
    cmdWorker { a with spuEndpoints := s } r = cmdWorker a r ∧ cmdUp { a with spuEndpoints := s } = cmdUp a ∧
      cmdRun k { a with spuEndpoints := s } = cmdRun k a := ⟨rfl, rfl, rfl⟩

/-- **C119, SPU addresses (violated).**  (1) Nodes written with a scheme get the address `http:9100`; (2) the addresses given with
`--spu-endpoints` are not used, the workers have none; (3) the port given to `config gen --spu-base-port` is lost; (4) the default port of
rank 0's SPU can be the port on which another worker of the same host listens; (5) with `--endpoints` the SPU addresses are still those of the
config file's hosts. -/
theorem spu_addresses_violated :
    (∃ (a : Args Nat) (w : Worker), cmdWorker a 0 = .ok w ∧ w.endpoints = ["http://10.0.0.1:8100"] ∧ w.spu = some [(0, "http:9100")]) ∧
    (∃ (a : Args Nat) (w : Worker), cmdWorker a 0 = .ok w ∧ a.spuEndpoints = some "a:1,b:2" ∧ w.worldSize = 2 ∧ w.spu = none) ∧
    (∃ (w : Worker), cmdWorker ({ config := some (genConfig 0 1 8100 (some 20000)) } : Args Nat) 0 = .ok w ∧ w.spu = some [(0, "127.0.0.1:9100")]) ∧
    (∃ (a : Args Nat) (w v : Worker), cmdWorker a 0 = .ok w ∧ cmdWorker a 1 = .ok v ∧ v.port = 9100 ∧ v.endpoints[1]? = some "http://h:9100" ∧
      w.spu = some [(0, "h:9100"), (1, "h:9101")]) ∧
    ∃ (a : Args Nat) (w : Worker), cmdWorker a 0 = .ok w ∧ w.endpoints = ["http://x:1", "http://y:2"] ∧ w.spu = some [(0, "h:9100")] := by
  refine ⟨⟨{ config := some ⟨none, some [⟨some "a", some "http://10.0.0.1:8100", none⟩], some [("S", ⟨some "SPU", none, none⟩)]⟩ },
    ⟨0, 1, 8100, ["http://10.0.0.1:8100"], some [(0, "http:9100")]⟩, ?_⟩,
    ⟨{ worldSize := 2, spuEndpoints := some "a:1,b:2" }, ⟨0, 2, 8100, ["http://127.0.0.1:8100", "http://127.0.0.1:8101"], none⟩, ?_⟩,
    ⟨⟨0, 1, 8100, ["http://127.0.0.1:8100"], some [(0, "127.0.0.1:9100")]⟩, ?_⟩,
    ⟨{ config := some ⟨none, some [⟨some "a", some "h:8100", none⟩, ⟨some "b", some "h:9100", none⟩], some [("S", ⟨some "SPU", none, none⟩)]⟩ },
      ⟨0, 2, 8100, ["http://h:8100", "http://h:9100"], some [(0, "h:9100"), (1, "h:9101")]⟩,
      ⟨1, 2, 9100, ["http://h:8100", "http://h:9100"], some [(0, "h:9100"), (1, "h:9101")]⟩, ?_⟩,
    ⟨{ config := some ⟨none, some [⟨some "a", some "h:8100", none⟩], some [("S", ⟨some "SPU", none, none⟩)]⟩, endpoints := some "x:1, y:2" },
      ⟨0, 2, 1, ["http://x:1", "http://y:2"], some [(0, "h:9100")]⟩, ?_⟩⟩ <;> decide +kernel

/-! ## Stopping a local cluster (C120) -/

theorem acts_succ (n : Nat) : acts (n + 1) = acts n ++ [.start n, .append n] := by
  unfold acts
  rw [List.range_succ, List.flatMap_append]
  simp

theorem acts_length (n : Nat) : (acts n).length = 2 * n := by
  induction n with
  | zero => rfl
  | succ n ih => rw [acts_succ, List.length_append, ih]; simp; omega

theorem acts_take (n k : Nat) (hk : k ≤ 2 * n) : running ((acts n).take k) = List.range ((k + 1) / 2) ∧ inList ((acts n).take k) = List.range (k / 2) := by
  induction n generalizing k with
  | zero =>
    have : k = 0 := by omega
    subst this
    exact ⟨rfl, rfl⟩
  | succ n ih =>
    rw [acts_succ]
    by_cases h : k ≤ 2 * n
    · rw [List.take_append_of_le_length (by rw [acts_length]; exact h)]
      exact ih k h
    · have full := ih (2 * n) (by omega)
      rw [List.take_of_length_le (by rw [acts_length]; exact Nat.le_refl _), show (2 * n + 1) / 2 = n by omega, show 2 * n / 2 = n by omega] at full
      rw [List.take_append, List.take_of_length_le (by rw [acts_length]; omega), acts_length]
      have hk' : k = 2 * n + 1 ∨ k = 2 * n + 2 := by omega
      unfold running inList at full ⊢
      rw [List.filterMap_append, List.filterMap_append, full.1, full.2]
      rcases hk' with rfl | rfl
      · rw [show 2 * n + 1 - 2 * n = 1 by omega, show (2 * n + 1 + 1) / 2 = n + 1 by omega, show (2 * n + 1) / 2 = n by omega]
        simp [List.range_succ]
      · rw [show 2 * n + 2 - 2 * n = 2 by omega, show (2 * n + 2 + 1) / 2 = n + 1 by omega, show (2 * n + 2) / 2 = n + 1 by omega]
        simp [List.range_succ]

/-- **C120, a signal stops the cluster (partial).**  At whatever point of starting `n` workers a signal arrives, the handler terminates the
workers started so far, except possibly the last one: none is missed unless the signal falls between the start of a worker and its entry into the list. -/
theorem signal_stops_workers_partial (n k : Nat) (hk : k ≤ 2 * n) :
    (∃ rest, running ((acts n).take k) = terminated n k ++ rest ∧ rest.length = k % 2) ∧
    (k = 2 * n → terminated n k = List.range n ∧ running ((acts n).take k) = List.range n) := by
  obtain ⟨h1, h2⟩ := acts_take n k hk
  unfold terminated
  rw [h1, h2]
  refine ⟨?_, ?_⟩
  · rcases Nat.mod_two_eq_zero_or_one k with h | h
    · exact ⟨[], by rw [show (k + 1) / 2 = k / 2 by omega]; simp, by rw [h]; rfl⟩
    · exact ⟨[k / 2], by rw [show (k + 1) / 2 = k / 2 + 1 by omega, List.range_succ], by rw [h]; rfl⟩
  · rintro rfl
    rw [show 2 * n / 2 = n by omega, show (2 * n + 1) / 2 = n by omega]
    exact ⟨rfl, rfl⟩

/-- **C120, a signal stops the cluster (violated).**  A signal right after a worker was started leaves it running. -/
theorem signal_stops_workers_violated (n : Nat) (r : Nat) (hr : r < n) :
    ∃ k, k ≤ 2 * n ∧ r ∈ running ((acts n).take k) ∧ r ∉ terminated n k := by
  refine ⟨2 * r + 1, by omega, ?_⟩
  obtain ⟨h1, h2⟩ := acts_take n (2 * r + 1) (by omega)
  unfold terminated
  rw [h1, h2]
  simp
  omega

example : running ((acts 3).take 4) = [0, 1] ∧ terminated 3 4 = [0, 1] ∧ running ((acts 3).take 5) = [0, 1, 2] ∧ terminated 3 5 = [0, 1] := by decide

end Verif.Tool.Cli
