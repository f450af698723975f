import Verif.Sgb.Protocol
/-!
# SecureBoost among parties computes what it computes in one place (C112): proofs
-/
namespace Verif.Sgb.Protocol
open Verif.Simp Verif.Comm

/-- find a chain of extensions among the hypotheses -/
macro "le" : tactic => `(tactic| (repeat (first | exact Le.refl _ | assumption | (refine @Le.trans _ _ _ ?_ _ ?_ ?_; rotate_left 2; assumption))))
/-- a fact about an earlier program, now -/
macro "up" h:term:max : term => `(($h).mono (by le))

/-! ## Specification of the transfers -/

/-- **Specification** What may be sent, by whom, to whom.  To a passive party, by the active party: ciphertexts, the encoder and the
evaluation keys, the samples' nodes, which nodes are leaves and which party owns them, the node numbers of the level, and the best
feature and bin of the receiving party's own columns.  To the active party: ciphertexts of histograms, the samples' nodes as computed
by the party, and its prediction mask.  Nothing else: no label, prediction, gradient, secret key, histogram, gain or leaf value, and
none of the parties' columns, bins or bin numbers. -/
def Allowed (ap : Nat) (pps : List Nat) : Kind → Nat → Nat → Prop
  | .ct, s, d | .encoder, s, d | .relin, s, d | .galois, s, d | .btLevel, s, d | .bt, s, d | .leaf, s, d | .own, s, d | .idx, s, d =>
    s = ap ∧ d ∈ pps
  | .bestFeat i, s, d | .bestThr i, s, d => s = ap ∧ 0 < i ∧ (ap :: pps)[i]? = some d
  | .histCt, s, d => s ∈ pps ∧ d = ap
  | .tmpBt i, s, d | .mask i, s, d => 0 < i ∧ (ap :: pps)[i]? = some s ∧ d = ap
  | _, _, _ => False

/-! ## Correspondence of program objects and values -/

section
variable {V : Type} (K : Ker V) {N ap : Nat} {pps : List Nat}

/-- ranks distinct and in range -/
structure Ranks (N ap : Nat) (pps : List Nat) : Prop where
  nodup : (ap :: pps).Nodup
  lt : ∀ p ∈ ap :: pps, p < N

/-- the transfers are allowed -/
def ok (V : Type) (ap : Nat) (pps : List Nat) : Loc V Kind → Nat → Nat → Prop := fun l s d => Allowed ap pps l.ty s d

/-- the value `v` of a kind at one party -/
abbrev at1 (t : Kind) (r : Nat) (v : V) : Loc V Kind := ⟨t, [r], v⟩

structure PartyRel (ap : Nat) (pps : List Nat) (S : Plain V Kind) (q : Party Nat) (Q : Party V) : Prop where
  i : q.i = Q.i
  rank : q.rank = Q.rank
  pos : (ap :: pps)[Q.i]? = some Q.rank
  data : Is S q.data (at1 (.data Q.i) Q.rank Q.data)
  bins : Is S q.bins (at1 (.bins Q.i) Q.rank Q.bins)
  binIdx : Is S q.binIdx (at1 (.binIdx Q.i) Q.rank Q.binIdx)

theorem PartyRel.mono {S S' : Plain V Kind} {q : Party Nat} {Q : Party V} (h : PartyRel ap pps S q Q) (g : Le S S') :
    PartyRel ap pps S' q Q := ⟨h.i, h.rank, h.pos, h.data.mono g, h.bins.mono g, h.binIdx.mono g⟩

structure WorkRel (ap : Nat) (pps : List Nat) (S : Plain V Kind) (w : Work Nat) (W : Work V) : Prop where
  pt : PartyRel ap pps S w.pt W.pt
  feat : Is S w.feat (at1 (.feat W.pt.i) W.pt.rank W.feat)
  thr : Is S w.thr (at1 (.thr W.pt.i) W.pt.rank W.thr)
  g : Objs S w.g (W.g.map (at1 .ct W.pt.rank))
  h : Objs S w.h (W.h.map (at1 .ct W.pt.rank))
  parent : ∀ P, W.parent = some P → ∃ p, w.parent = some p ∧ Is S p (at1 .hist ap P)

theorem WorkRel.mono {S S' : Plain V Kind} {w : Work Nat} {W : Work V} (h : WorkRel ap pps S w W) (g : Le S S') :
    WorkRel ap pps S' w W :=
  ⟨h.pt.mono g, h.feat.mono g, h.thr.mono g, h.g.mono g, h.h.mono g, fun P hP =>
    let ⟨p, h1, h2⟩ := h.parent P hP
    ⟨p, h1, h2.mono g⟩⟩

structure KeysRel (ap : Nat) (S : Plain V Kind) (k : Keys Nat) (Q : Keys V) : Prop where
  pk : Is S k.pk (at1 .pk ap Q.pk)
  sk : Is S k.sk (at1 .sk ap Q.sk)
  relin : Is S k.relin (at1 .relin ap Q.relin)
  galois : Is S k.galois (at1 .galois ap Q.galois)
  encoder : Is S k.encoder (at1 .encoder ap Q.encoder)

theorem KeysRel.mono {S S' : Plain V Kind} {k : Keys Nat} {Q : Keys V} (h : KeysRel ap S k Q) (g : Le S S') : KeysRel ap S' k Q :=
  ⟨h.pk.mono g, h.sk.mono g, h.relin.mono g, h.galois.mono g, h.encoder.mono g⟩

/-- a value of the active party, possibly held by others too -/
def Here (ap : Nat) (S : Plain V Kind) (x : Nat) (t : Kind) (v : V) : Prop := ∃ l, Is S x l ∧ ap ∈ l.at_ ∧ l.ty = t ∧ l.val = v

theorem Here.mono {S S' : Plain V Kind} {x : Nat} {t : Kind} {v : V} (h : Here ap S x t v) (g : Le S S') : Here ap S' x t v :=
  let ⟨l, h1, h2⟩ := h
  ⟨l, h1.mono g, h2⟩

theorem mapM_forall₂ {A B : Type} {g : A → Option B} : ∀ {as : List A} {bs : List B}, as.mapM g = some bs →
    List.Forall₂ (fun a b => g a = some b) as bs
  | [], bs, h => by
    simp only [List.mapM_nil] at h; cases h; exact .nil
  | a :: as, bs, h => by
    simp only [List.mapM_cons, Option.bind_eq_bind, Option.bind_eq_some_iff, Option.pure_def, Option.some.injEq] at h
    obtain ⟨b, h1, bs', h2, rfl⟩ := h
    exact .cons h1 (mapM_forall₂ h2)

/-- A loop compared with a loop over values. -/
theorem spec_each2 {T A A' B B' : Type} {ok : Loc V T → Nat → Nat → Prop} {f : A → Chor V T B} {g : A' → Option B'}
    (R : A → A' → Plain V T → Prop) (P : B → B' → Plain V T → Prop) (monoR : ∀ a b S S', Le S S' → R a b S → R a b S')
    (monoP : ∀ a b S S', Le S S' → P a b S → P a b S') {as : List A} {as' : List A'} {bs' : List B'} {S : Plain V T}
    (h : List.Forall₂ (fun a a' => R a a' S) as as') (hg : as'.mapM g = some bs')
    (step : ∀ a a' b' S', Le S S' → R a a' S' → a' ∈ as' → g a' = some b' → Spec N ok (f a) S' fun b S'' => P b b' S'') :
    Spec N ok (each f as) S fun bs S' => List.Forall₂ (fun b b' => P b b' S') bs bs' := by
  replace hg := mapM_forall₂ hg
  induction as generalizing as' bs' S with
  | nil => cases h; cases hg; exact .ret .nil
  | cons a as ih =>
    cases h with
    | cons h1 hrest =>
      cases hg with
      | cons g1 gs =>
        refine Spec.bind (step _ _ _ S (.refl S) h1 (by simp) g1) fun b S1 le1 hb => ?_
        refine Spec.bind (ih (S := S1) (hrest.imp fun a b h => monoR _ _ _ _ le1 h)
          (fun a a' b' S' le hr hm => step a a' b' S' (le1.trans le) hr (by simp [hm])) gs) ?_
        intro bs S2 le2 hbs
        exact .ret (.cons (monoP _ _ _ _ le2 hb) hbs)

theorem Ranks.ap_lt (h : Ranks N ap pps) : ap < N := h.lt ap (by simp)

theorem PartyRel.mem {S : Plain V Kind} {q : Party Nat} {Q : Party V} (h : PartyRel ap pps S q Q) : Q.rank ∈ ap :: pps :=
  List.mem_iff_getElem?.2 ⟨_, h.pos⟩

theorem PartyRel.passive {S : Plain V Kind} {q : Party Nat} {Q : Party V} (h : PartyRel ap pps S q Q) (hi : 0 < Q.i) : Q.rank ∈ pps := by
  have := h.pos
  obtain ⟨j, hj⟩ : ∃ j, Q.i = j + 1 := ⟨Q.i - 1, by omega⟩
  rw [hj] at this
  exact List.mem_iff_getElem?.2 ⟨j, by simpa using this⟩

theorem replicate_zip {t : Kind} {n r : Nat} {vs : List V} (h : vs.length = n) :
    ((List.replicate n t).zip vs).map (fun e => (⟨e.1, [r], e.2⟩ : Loc V Kind)) = vs.map (at1 t r) := by
  subst h
  induction vs with
  | nil => rfl
  | cons v vs ih => simp [List.replicate_succ, ih]

theorem mapM_self {A : Type} (vs : List A) : vs.mapM (fun v => some v) = some vs := by
  induction vs with
  | nil => rfl
  | cons v vs ih => simp [List.mapM_cons, ih]

/-- Party `r` can use object `x`, whose value is `v`. -/
def Can (r : Nat) (S : Plain V Kind) (x : Nat) (v : V) : Prop := ∃ l, Is S x l ∧ r ∈ l.at_ ∧ l.val = v

theorem Can.mono {r : Nat} {S S' : Plain V Kind} {x : Nat} {v : V} (h : Can r S x v) (g : Le S S') : Can r S' x v :=
  let ⟨l, h1, h2⟩ := h
  ⟨l, h1.mono g, h2⟩

theorem _root_.Verif.Simp.Is.can {r : Nat} {S : Plain V Kind} {x : Nat} {t : Kind} {v : V} (h : Is S x (at1 t r v)) : Can r S x v := ⟨_, h, by simp, rfl⟩
theorem Here.can {S : Plain V Kind} {x : Nat} {t : Kind} {v : V} (h : Here ap S x t v) : Can ap S x v :=
  let ⟨l, h1, h2, _, h4⟩ := h
  ⟨l, h1, h2, h4⟩
theorem _root_.Verif.Simp.Is.here {S : Plain V Kind} {x : Nat} {t : Kind} {v : V} (h : Is S x (at1 t ap v)) : Here ap S x t v := ⟨_, h, by simp, rfl, rfl⟩

/-- arguments of a call at party `r` -/
def Args (r : Nat) (S : Plain V Kind) (xs : List Nat) (vs : List V) : Prop := List.Forall₂ (fun x v => Can r S x v) xs vs

theorem Args.objs {r : Nat} {S : Plain V Kind} {xs : List Nat} {vs : List V} (h : Args r S xs vs) :
    ∃ ls, Objs S xs ls ∧ (∀ l ∈ ls, r ∈ l.at_) ∧ ls.map Loc.val = vs := by
  induction h with
  | nil => exact ⟨[], .nil, by simp, rfl⟩
  | cons h1 _ ih =>
    obtain ⟨l, a1, a2, a3⟩ := h1
    obtain ⟨ls, b1, b2, b3⟩ := ih
    exact ⟨l :: ls, .cons a1 b1, by simpa [a2] using b2, by simp [a3, b3]⟩

theorem call_one {ok : Loc V Kind → Nat → Nat → Prop} {r : Nat} {f : List V → Option V} {t : Kind} {args : List Nat} {S : Plain V Kind}
    {vs : List V} {v : V} (ha : Args r S args vs) (hf : f vs = some v) : Spec N ok (one r f t args) S fun y S' => Is S' y (at1 t r v) := by
  obtain ⟨ls, h1, h2, rfl⟩ := ha.objs
  exact spec_one h1 h2 hf

theorem call_several {ok : Loc V Kind → Nat → Nat → Prop} {r : Nat} {f : List V → Option (List V)} {ts : List Kind} {args : List Nat}
    {S : Plain V Kind} {vs rs : List V} (ha : Args r S args vs) (hf : f vs = some rs) (hl : rs.length = ts.length) :
    Spec N ok (several r f ts args) S fun ys S' => Objs S' ys ((ts.zip rs).map fun e => ⟨e.1, [r], e.2⟩) := by
  obtain ⟨ls, h1, h2, rfl⟩ := ha.objs
  exact spec_several h1 h2 hf hl

/-- a list of values sent one by one -/
theorem spec_moves {S : Plain V Kind} {xs : List Nat} {vs : List V} {t : Kind} {src dst : Nat} (h : Objs S xs (vs.map (at1 t src)))
    (hs : src < N) (hd : dst < N) (hok : Allowed ap pps t src dst) :
    Spec N (ok V ap pps) (each (fun y => move y src dst) xs) S fun ys S' => Objs S' ys (vs.map (at1 t dst)) := by
  have h' : List.Forall₂ (fun x v => Is S x (at1 t src v)) xs vs := List.forall₂_map_right_iff.1 h
  have hm := mapM_self vs
  refine Spec.weaken (spec_each2 (fun x v S => Is S x (at1 t src v)) (fun y v S => Is S y (at1 t dst v))
    (fun _ _ _ _ le h => h.mono le) (fun _ _ _ _ le h => h.mono le) h' hm fun x v v' S' le hx _ hv => ?_)
    fun ys S' _ hys => List.forall₂_map_right_iff.2 hys
  cases hv
  exact spec_move hx (by simp) hs hd hok

theorem spec_passive (hR : Ranks N ap pps) {S : Plain V Kind} {L : Nat} {k : Keys Nat} {Kv : Keys V} (hk : KeysRel ap S k Kv) {btl : Nat}
    {b : V} (hb : Is S btl (at1 .btLevel ap b)) {w : Work Nat} {W : Work V} (hw : WorkRel ap pps S w W) (hi : 0 < W.pt.i)
    {R : Work V × V × V × V} (hc : passiveC K L Kv b W = some R) :
    Spec N (ok V ap pps) (passive K ap L k btl w) S fun r S' => WorkRel ap pps S' r.1 R.1 ∧ R.1.pt = W.pt ∧
      Is S' r.2.1 (at1 .gain ap R.2.1) ∧ Is S' r.2.2.1 (at1 (.bestFeat W.pt.i) ap R.2.2.1) ∧
      Is S' r.2.2.2 (at1 (.bestThr W.pt.i) ap R.2.2.2) := by
  have hp := hw.pt
  have hr : W.pt.rank ∈ pps := hp.passive hi
  have hrN : W.pt.rank < N := hR.lt _ (by simp [hr])
  unfold passive
  rw [hp.i, hp.rank]
  simp only [passiveC, Option.bind_eq_bind, Option.bind_eq_some_iff] at hc
  obtain ⟨m, hm, m', hm', cts, hcts, hist, hh, hist', hh', hc⟩ := hc
  obtain ⟨hf, hfl⟩ : K.fhe W.pt.i L (m' :: W.pt.binIdx :: W.g ++ W.h ++ [Kv.encoder, Kv.relin, Kv.galois]) = some cts ∧
      cts.length = K.fheOuts W.pt.i L := by
    unfold exactly at hcts
    split at hcts
    · split at hcts
      · cases hcts; exact ⟨by assumption, by assumption⟩
      · cases hcts
    · cases hcts
  obtain ⟨g, f, t, hs, rfl⟩ : ∃ g f t, K.split [hist'] = some [g, f, t] ∧ ({ W with parent := some hist' }, g, f, t) = R := by
    unfold three at hc
    split at hc
    · exact ⟨_, _, _, by assumption, Option.some.inj hc⟩
    · cases hc
  have okp : ∀ t : Kind, (∀ s d, Allowed ap pps t s d ↔ s = ap ∧ d ∈ pps) → ∀ (r : List Nat) (v : V),
      ok V ap pps ⟨t, r, v⟩ ap W.pt.rank := fun t h r v => (h _ _).2 ⟨rfl, hr⟩
  refine Spec.bind (spec_move hb (by simp) hR.ap_lt hrN (okp _ (fun _ _ => Iff.rfl) _ _)) fun b' S1 l1 hb' => ?_
  refine Spec.bind (spec_move (up hk.encoder) (by simp) hR.ap_lt hrN (okp _ (fun _ _ => Iff.rfl) _ _)) fun e S2 l2 he => ?_
  refine Spec.bind (spec_move (up hk.relin) (by simp) hR.ap_lt hrN (okp _ (fun _ _ => Iff.rfl) _ _)) fun rk S3 l3 hrk => ?_
  refine Spec.bind (spec_move (up hk.galois) (by simp) hR.ap_lt hrN (okp _ (fun _ _ => Iff.rfl) _ _)) fun gk S4 l4 hgk => ?_
  refine Spec.bind (spec_one (v := m) (.cons (up hb') .nil) (by simp) hm) fun xm S5 l5 hxm => ?_
  refine Spec.bind (P := fun y S' => Is S' y (at1 .nodeMap W.pt.rank m')) ?_ fun xm' S6 l6 hxm' => ?_
  · unfold nodesC at hm'
    by_cases hL : L = 0
    · rw [if_pos hL] at hm' ⊢
      cases hm'; exact .ret (up hxm)
    · rw [if_neg hL] at hm' ⊢
      exact spec_one (.cons (up hxm) .nil) (by simp) hm'
  have hargs : Objs S6 (xm' :: w.pt.binIdx :: w.g ++ w.h ++ [e, rk, gk])
      ((at1 .nodeMap W.pt.rank m' :: at1 (.binIdx W.pt.i) W.pt.rank W.pt.binIdx :: W.g.map (at1 .ct W.pt.rank)) ++ W.h.map (at1 .ct W.pt.rank) ++
        [at1 .encoder W.pt.rank Kv.encoder, at1 .relin W.pt.rank Kv.relin, at1 .galois W.pt.rank Kv.galois]) :=
    forall₂_snoc (forall₂_snoc (.cons hxm' (.cons (up hp.binIdx) (up hw.g))) (up hw.h)) (.cons (up he) (.cons (up hrk) (.cons (up hgk) .nil)))
  refine Spec.bind (spec_several hargs (by simp; grind) (rs := cts) (by simpa [Function.comp_def] using hf) (by simp [hfl])) fun xs S7 l7 hxs => ?_
  rw [replicate_zip hfl] at hxs
  refine Spec.bind (spec_moves hxs hrN hR.ap_lt (show _ ∧ _ from ⟨hr, rfl⟩)) fun ys S8 l8 hys => ?_
  have hargs2 : Objs S8 (ys ++ [k.sk, k.encoder]) (cts.map (at1 .histCt ap) ++ [at1 .sk ap Kv.sk, at1 .encoder ap Kv.encoder]) :=
    forall₂_snoc hys (.cons (up hk.sk) (.cons (up hk.encoder) .nil))
  refine Spec.bind (spec_one (v := hist) hargs2 (by simp; grind) (by simpa [Function.comp_def] using hh)) fun xh S9 l9 hxh => ?_
  refine Spec.bind (P := fun y S' => Is S' y (at1 .hist ap hist')) ?_ fun xh' S10 l10 hxh' => ?_
  · unfold subtractC at hh'
    unfold subtract
    by_cases hL : L = 0
    · rw [if_pos hL] at hh' ⊢
      cases hh'; exact .ret (up hxh)
    · rw [if_neg hL] at hh' ⊢
      obtain ⟨P, hP, hh'⟩ := Option.bind_eq_some_iff.1 hh'
      obtain ⟨p, e1, e2⟩ := hw.parent P hP
      simp only [e1]
      exact spec_one (.cons (up hxh) (.cons (up e2) .nil)) (by simp) hh'
  refine Spec.bind (spec_several (rs := [g, f, t]) (.cons hxh' .nil) (by simp) hs rfl) fun r S11 l11 hr' => ?_
  cases hr' with
  | cons a1 hr' => cases hr' with
    | cons a2 hr' => cases hr' with
      | cons a3 hr' =>
        cases hr'
        refine .ret ⟨⟨up hp, up hw.feat, up hw.thr, up hw.g, up hw.h, fun P hP => ?_⟩, rfl, a1, a2, a3⟩
        cases hP
        exact ⟨xh', rfl, up hxh'⟩

/-- a value of the active party where a party needs it -/
theorem spec_bring (hR : Ranks N ap pps) {S : Plain V Kind} {q : Party Nat} {Q : Party V} (hp : PartyRel ap pps S q Q) {x : Nat} {t : Kind}
    {v : V} (hx : Here ap S x t v) (hok : 0 < Q.i → Allowed ap pps t ap Q.rank) :
    Spec N (ok V ap pps) (bring ap q x) S fun y S' => Can Q.rank S' y v := by
  obtain ⟨l, h1, h2, rfl, rfl⟩ := hx
  unfold bring
  rw [hp.i, hp.rank]
  by_cases hi : Q.i = 0
  · rw [if_pos hi]
    have : ap = Q.rank := by have := hp.pos; rw [hi] at this; simpa using this
    exact .ret ⟨l, h1, this ▸ h2, rfl⟩
  · rw [if_neg hi]
    exact Spec.weaken (spec_move h1 h2 hR.ap_lt (hR.lt _ hp.mem) (hok (by omega))) fun y S' _ hy => ⟨_, hy, by simp, rfl⟩

theorem spec_update (hR : Ranks N ap pps) {S : Plain V Kind} {idx own leaf bt btl : Nat} {vi vo vl vb vbl : V} (h1 : Here ap S idx .idx vi)
    (h2 : Here ap S own .own vo) (h3 : Here ap S leaf .leaf vl) (h4 : Here ap S bt .bt vb) (h5 : Here ap S btl .btLevel vbl)
    {q : Work Nat × Nat × Nat} {Q : Work V × V × V} (hw : WorkRel ap pps S q.1 Q.1) (hf : Here ap S q.2.1 (.bestFeat Q.1.pt.i) Q.2.1)
    (ht : Here ap S q.2.2 (.bestThr Q.1.pt.i) Q.2.2) {R : Work V × V} (hc : updateC K vi vo vl vb vbl Q = some R) :
    Spec N (ok V ap pps) (update K ap idx own leaf bt btl q) S fun r S' => WorkRel ap pps S' r.1 R.1 ∧ R.1.pt = Q.1.pt ∧ Can ap S' r.2 R.2 := by
  have hp := hw.pt
  have hrN : Q.1.pt.rank < N := hR.lt _ hp.mem
  simp only [updateC, Option.bind_eq_bind, Option.bind_eq_some_iff, Option.pure_def, Option.some.injEq] at hc
  obtain ⟨f, hf', t, ht', b, hb', rfl⟩ := hc
  unfold update
  have al : ∀ t, (∀ s d, Allowed ap pps t s d ↔ s = ap ∧ d ∈ pps) → 0 < Q.1.pt.i → Allowed ap pps t ap Q.1.pt.rank :=
    fun t h hi => (h _ _).2 ⟨rfl, hp.passive hi⟩
  refine Spec.bind (spec_bring hR (up hp) (up hf) fun hi => ⟨rfl, hi, hp.pos⟩) fun bf S1 l1 hbf => ?_
  refine Spec.bind (spec_bring hR (up hp) (up ht) fun hi => ⟨rfl, hi, hp.pos⟩) fun bth S2 l2 hbth => ?_
  refine Spec.bind (spec_bring hR (up hp) (up h1) (al _ fun _ _ => Iff.rfl)) fun ci S3 l3 hci => ?_
  refine Spec.bind (spec_bring hR (up hp) (up h2) (al _ fun _ _ => Iff.rfl)) fun op S4 l4 hop => ?_
  refine Spec.bind (spec_bring hR (up hp) (up h3) (al _ fun _ _ => Iff.rfl)) fun il S5 l5 hil => ?_
  rw [hp.rank, hp.i]
  refine Spec.bind (call_one (v := f) (.cons (up hw.feat.can) (.cons (up hbf) (.cons (up hci) (.cons (up hop) (.cons (up hil) .nil))))) hf')
    fun xf S6 l6 hxf => ?_
  refine Spec.bind (call_one (v := t) (.cons (up hw.thr.can) (.cons (up hp.bins.can) (.cons (up hbf) (.cons (up hbth) (.cons (up hci)
    (.cons (up hop) (.cons (up hil) .nil))))))) ht') fun xt S7 l7 hxt => ?_
  refine Spec.bind (spec_bring hR (up hp) (up h4) (al _ fun _ _ => Iff.rfl)) fun xb S8 l8 hxb => ?_
  refine Spec.bind (spec_bring hR (up hp) (up h5) (al _ fun _ _ => Iff.rfl)) fun xl S9 l9 hxl => ?_
  refine Spec.bind (call_one (v := b) (.cons (up hxb) (.cons (up hxl) (.cons (up hil) (.cons (up hp.binIdx.can) (.cons (up hbf)
    (.cons (up hbth) .nil)))))) hb') fun xtmp S10 l10 hxtmp => ?_
  refine Spec.bind (P := fun y S' => Can ap S' y b) ?_ fun xtmp' S11 l11 hxtmp' => ?_
  · by_cases hi : Q.1.pt.i = 0
    · rw [if_pos hi]
      have : Q.1.pt.rank = ap := by have := hp.pos; rw [hi] at this; simpa using this.symm
      exact .ret (this ▸ hxtmp.can)
    · rw [if_neg hi]
      exact Spec.weaken (spec_move hxtmp (by simp) hrN hR.ap_lt ⟨by omega, hp.pos, rfl⟩) fun y S' _ hy => hy.can
  exact .ret ⟨⟨up hp, up hxf, up hxt, up hw.g, up hw.h, fun P hP =>
    let ⟨p, e1, e2⟩ := hw.parent P hP
    ⟨p, e1, up e2⟩⟩, rfl, hxtmp'⟩

/-- `at_` are the parties that hold the owners of the nodes -/
structure StateRel (ap : Nat) (pps : List Nat) (at_ : List Nat) (S : Plain V Kind) (s : State Nat) (R : State V) : Prop where
  me : WorkRel ap pps S s.me R.me
  me0 : R.me.pt.i = 0
  others : List.Forall₂ (fun w W => WorkRel ap pps S w W ∧ 0 < W.pt.i) s.others R.others
  leaf : Here ap S s.leaf .leaf R.leaf
  own : Is S s.own ⟨.own, at_, R.own⟩
  here : ap ∈ at_
  bt : Here ap S s.bt .bt R.bt

def KeysOpt (ap : Nat) (S : Plain V Kind) (k : Option (Keys Nat)) (Q : Option (Keys V)) : Prop :=
  ∀ q, Q = some q → ∃ k', k = some k' ∧ KeysRel ap S k' q

theorem KeysOpt.mono {S S' : Plain V Kind} {k : Option (Keys Nat)} {Q : Option (Keys V)} (h : KeysOpt ap S k Q) (g : Le S S') :
    KeysOpt ap S' k Q := fun q hq =>
  let ⟨k', h1, h2⟩ := h q hq
  ⟨k', h1, h2.mono g⟩

theorem two_some {X β : Type} {k : X → X → Option β} {o : Option (List X)} {r : β} (h : two k o = some r) :
    ∃ a b, o = some [a, b] ∧ k a b = some r := by
  unfold two at h
  split at h
  · exact ⟨_, _, rfl, h⟩
  · cases h

theorem three_some {X β : Type} {k : X → X → X → Option β} {o : Option (List X)} {r : β} (h : three k o = some r) :
    ∃ a b c, o = some [a, b, c] ∧ k a b c = some r := by
  unfold three at h
  split at h
  · exact ⟨_, _, _, rfl, h⟩
  · cases h

theorem objs2 {S : Plain V Kind} {ys : List Nat} {l m : Loc V Kind} (h : Objs S ys [l, m]) : ∃ a b, ys = [a, b] ∧ Is S a l ∧ Is S b m := by
  cases h with
  | cons a1 h => cases h with
    | cons a2 h => cases h; exact ⟨_, _, rfl, a1, a2⟩

theorem objs3 {S : Plain V Kind} {ys : List Nat} {l m n : Loc V Kind} (h : Objs S ys [l, m, n]) :
    ∃ a b c, ys = [a, b, c] ∧ Is S a l ∧ Is S b m ∧ Is S c n := by
  cases h with
  | cons a1 h => cases h with
    | cons a2 h => cases h with
      | cons a3 h => cases h; exact ⟨_, _, _, rfl, a1, a2, a3⟩

theorem args_map {A B : Type} {r : Nat} {S : Plain V Kind} {P : A → B → Prop} {f : A → Nat} {g : B → V} {as : List A} {bs : List B}
    (h : List.Forall₂ P as bs) (hp : ∀ a b, P a b → Can r S (f a) (g b)) : Args r S (as.map f) (bs.map g) :=
  List.forall₂_map_left_iff.2 (List.forall₂_map_right_iff.2 (h.imp fun _ _ h => hp _ _ h))

theorem all_in : ap ∈ sortedSet (ap :: pps) := (mem_sortedSet ap _).2 (by simp)

theorem passiveC_pt {L : Nat} {k : Keys V} {b : V} {q : Work V} {R : Work V × V × V × V} (h : passiveC K L k b q = some R) :
    R.1.pt = q.pt := by
  simp only [passiveC, Option.bind_eq_bind, Option.bind_eq_some_iff] at h
  obtain ⟨_, _, _, _, _, _, _, _, _, _, h⟩ := h
  obtain ⟨_, _, _, _, h⟩ := three_some h
  cases h; rfl

theorem updateC_pt {i o l b bl : V} {q : Work V × V × V} {R : Work V × V} (h : updateC K i o l b bl q = some R) : R.1.pt = q.1.pt := by
  simp only [updateC, Option.bind_eq_bind, Option.bind_eq_some_iff, Option.pure_def, Option.some.injEq] at h
  obtain ⟨_, _, _, _, _, _, rfl⟩ := h
  rfl

theorem forall₂_map_eq {A B C : Type} {R : A → B → Prop} {as : List A} {bs : List B} (h : List.Forall₂ R as bs) (f : B → C) (g : A → C)
    (hr : ∀ a b, R a b → g a = f b) : as.map g = bs.map f := by
  induction h with
  | nil => rfl
  | cons h1 _ ih => simp [hr _ _ h1, ih]

theorem forall₂_mem {A B : Type} {R Q : A → B → Prop} {as : List A} {bs : List B} (h : List.Forall₂ R as bs)
    (hr : ∀ a b, b ∈ bs → R a b → Q a b) : List.Forall₂ Q as bs := by
  induction h with
  | nil => exact .nil
  | cons h1 _ ih => exact .cons (hr _ _ (by simp) h1) (ih fun a b hb h => hr a b (by simp [hb]) h)

theorem spec_level (hR : Ranks N ap pps) {S : Plain V Kind} {gh : Nat} {vgh : V} (hgh : Is S gh (at1 .gh ap vgh)) {keys : Option (Keys Nat)}
    {Kv : Option (Keys V)} (hk : KeysOpt ap S keys Kv) {L : Nat} {s : State Nat} {W R : State V} {at_ : List Nat}
    (hs : StateRel ap pps at_ S s W) (hc : levelC K vgh Kv L W = some R) :
    Spec N (ok V ap pps) (level K ap pps gh keys L s) S fun r S' => StateRel ap pps (sortedSet (ap :: pps)) S' r R ∧
      R.me.pt = W.me.pt ∧ R.others.map Work.pt = W.others.map Work.pt := by
  have hap : W.me.pt.rank = ap := by have := hs.me.pt.pos; rw [hs.me0] at this; simpa using this.symm
  simp only [levelC, Option.bind_eq_bind, Option.bind_eq_some_iff] at hc
  obtain ⟨btl, hbtl, h, hh, hc⟩ := hc
  obtain ⟨g0, f0, t0, hsp, hc⟩ := three_some hc
  simp only [Option.bind_eq_some_iff] at hc
  obtain ⟨ps, hps, hc⟩ := hc
  obtain ⟨bg, bp, hbest, hc⟩ := two_some hc
  simp only [Option.bind_eq_some_iff] at hc
  obtain ⟨leaf, hleaf, own, hown, us, hus, bt, hbt, hc⟩ := hc
  unfold level
  refine Spec.bind (call_one (v := K.level L) (vs := []) .nil rfl) fun xi S1 l1 hxi => ?_
  refine Spec.bind (call_one (v := btl) (.cons (up hs.bt.can) .nil) hbtl) fun xbl S2 l2 hxbl => ?_
  have hbi : Can ap S s.me.pt.binIdx W.me.pt.binIdx := by
    have := hs.me.pt.binIdx.can
    rwa [hap] at this
  refine Spec.bind (call_one (v := h) (.cons (up hgh.can) (.cons (up hxbl.can) (.cons (up hbi) .nil))) hh) fun xh S3 l3 hxh => ?_
  refine Spec.bind (call_several (rs := [g0, f0, t0]) (.cons hxh.can .nil) hsp rfl) fun r S4 l4 hr => ?_
  obtain ⟨xg, xf, xt, rfl, hxg, hxf, hxt⟩ := objs3 hr
  simp only [take3]
  -- the passive parties
  refine Spec.bind (spec_each2 (g := fun q => Kv.bind fun k => passiveC K L k btl q)
    (fun (w : Work Nat) (Q : Work V) S => WorkRel ap pps S w Q ∧ 0 < Q.pt.i)
    (fun (r : Work Nat × Nat × Nat × Nat) (R : Work V × V × V × V) S => WorkRel ap pps S r.1 R.1 ∧ 0 < R.1.pt.i ∧ Is S r.2.1 (at1 .gain ap R.2.1) ∧ Is S r.2.2.1 (at1 (.bestFeat R.1.pt.i) ap R.2.2.1) ∧
      Is S r.2.2.2 (at1 (.bestThr R.1.pt.i) ap R.2.2.2))
    (fun _ _ _ _ le h => ⟨h.1.mono le, h.2⟩)
    (fun _ _ _ _ le h => ⟨h.1.mono le, h.2.1, h.2.2.1.mono le, h.2.2.2.1.mono le, h.2.2.2.2.mono le⟩)
    (hs.others.imp fun _ _ h => ⟨up h.1, h.2⟩) hps ?_) fun xps S5 l5 hxps => ?_
  · intro w Q b' S' le hw _ hq
    obtain ⟨k, hk1, hk2⟩ := Option.bind_eq_some_iff.1 hq
    obtain ⟨k', rfl, hk'⟩ := hk k hk1
    refine Spec.weaken (spec_passive K hR (up hk') (up hxbl) hw.1 hw.2 hk2) fun r S'' _ hr => ?_
    obtain ⟨a1, a2, a3, a4, a5⟩ := hr
    rw [a2]
    exact ⟨a1, hw.2, a3, a4, a5⟩
  refine Spec.bind (call_several (rs := [bg, bp]) (.cons (up hxg.can) (args_map hxps fun _ _ h => h.2.2.1.can)) hbest rfl) fun r S6 l6 hr => ?_
  obtain ⟨xbg, xbp, rfl, hxbg, hxbp⟩ := objs2 hr
  simp only [take2]
  have sh : ∀ (t : Kind), (∀ s d, Allowed ap pps t s d ↔ s = ap ∧ d ∈ pps) → ∀ (v : V), ∀ d ∈ pps, ok V ap pps ⟨t, [ap], v⟩ ap d :=
    fun t h v d hd => (h _ _).2 ⟨rfl, hd⟩
  refine Spec.bind (call_one (v := leaf) (.cons (up hs.leaf.can) (.cons (up hxbg.can) (.cons (up hxi.can) .nil))) hleaf) fun xl0 S7 l7 hxl0 => ?_
  refine Spec.bind (spec_share hxl0 hR.nodup hR.lt (sh _ (fun _ _ => Iff.rfl) _)) fun xl S8 l8 hxl => ?_
  have hown' : Can ap S s.own W.own := ⟨_, hs.own, hs.here, rfl⟩
  refine Spec.bind (call_one (v := own) (.cons (up hown') (.cons (up hxbp.can) (.cons (up hxi.can) .nil))) hown) fun xo0 S9 l9 hxo0 => ?_
  refine Spec.bind (spec_share hxo0 hR.nodup hR.lt (sh _ (fun _ _ => Iff.rfl) _)) fun xo S10 l10 hxo => ?_
  have hh : ∀ {S : Plain V Kind} {x : Nat} {t : Kind} {v : V}, Is S x ⟨t, sortedSet (ap :: pps), v⟩ → Here ap S x t v :=
    fun h => ⟨_, h, all_in, rfl, rfl⟩
  -- every party's update
  refine Spec.bind (spec_each2 (g := updateC K (K.level L) own leaf W.bt btl)
    (fun (q : Work Nat × Nat × Nat) (Q : Work V × V × V) S => WorkRel ap pps S q.1 Q.1 ∧ Here ap S q.2.1 (.bestFeat Q.1.pt.i) Q.2.1 ∧ Here ap S q.2.2 (.bestThr Q.1.pt.i) Q.2.2)
    (fun (r : Work Nat × Nat) (R : Work V × V) S => WorkRel ap pps S r.1 R.1 ∧ Can ap S r.2 R.2)
    (fun _ _ _ _ le h => ⟨h.1.mono le, h.2.1.mono le, h.2.2.mono le⟩)
    (fun _ _ _ _ le h => ⟨h.1.mono le, h.2.mono le⟩)
    (.cons ⟨up hs.me, ?_, ?_⟩ (List.forall₂_map_left_iff.2 (List.forall₂_map_right_iff.2 (hxps.imp fun _ _ h =>
      ⟨up h.1, up h.2.2.2.1.here, up h.2.2.2.2.here⟩)))) hus ?_) fun xus S11 l11 hxus => ?_
  · simp only [hs.me0]; exact up hxf.here
  · simp only [hs.me0]; exact up hxt.here
  · intro q Q b' S' le hq _ hu
    exact Spec.weaken (spec_update K hR (up hxi.here) (up (hh hxo)) (up (hh hxl)) (up hs.bt) (up hxbl.here) hq.1 hq.2.1 hq.2.2 hu)
      fun r S'' _ hr => ⟨hr.1, hr.2.2⟩
  have hargs : Args ap S11 (s.bt :: xus.map Prod.snd ++ [xbp, xi]) (W.bt :: us.map Prod.snd ++ [bp, K.level L]) :=
    forall₂_snoc (.cons (up hs.bt.can) (args_map hxus fun _ _ h => h.2)) (.cons (up hxbp.can) (.cons (up hxi.can) .nil))
  refine Spec.bind (call_one (v := bt) hargs hbt) fun xb0 S12 l12 hxb0 => ?_
  refine Spec.bind (spec_share hxb0 hR.nodup hR.lt (sh _ (fun _ _ => Iff.rfl) _)) fun xb S13 l13 hxb => ?_
  have hpt1 : ps.map (fun r => r.1.pt) = W.others.map Work.pt := by
    refine (forall₂_map_eq (mapM_forall₂ hps) (fun r => r.1.pt) Work.pt fun a b h => ?_).symm
    obtain ⟨k, _, hk2⟩ := Option.bind_eq_some_iff.1 h
    exact (passiveC_pt K hk2).symm
  have hpt2 : us.map (fun r => r.1.pt) = W.me.pt :: W.others.map Work.pt := by
    rw [← hpt1]
    have := forall₂_map_eq (mapM_forall₂ hus) (fun r => r.1.pt) (fun q => q.1.pt) fun a b h => (updateC_pt K h).symm
    rw [← this]
    simp [Function.comp_def]
  cases hxus with
  | nil => simp [stateC] at hc
  | @cons u U us' Us' hu hus' =>
    simp only [List.map_cons, stateC, Option.some.injEq, List.cons.injEq] at hc hpt2 ⊢
    subst hc
    refine .ret ⟨⟨up hu.1, by rw [hpt2.1]; exact hs.me0, ?_, up (hh hxl), up hxo, all_in, up (hh hxb)⟩, hpt2.1, by
      rw [List.map_map]; exact hpt2.2⟩
    have hpos : ∀ U ∈ Us', 0 < U.1.pt.i := by
      intro U hU
      have : U.1.pt ∈ W.others.map Work.pt := by rw [← hpt2.2]; exact List.mem_map.2 ⟨U, hU, rfl⟩
      obtain ⟨w, hw, hwe⟩ := List.mem_map.1 this
      rw [← hwe]
      obtain ⟨j, hj⟩ := List.mem_iff_getElem?.1 hw
      obtain ⟨x, _, hx⟩ := forall₂_get hs.others.flip hj
      exact hx.2
    refine List.forall₂_map_left_iff.2 (List.forall₂_map_right_iff.2 ?_)
    exact forall₂_mem hus' fun a b hb h => ⟨up h.1, hpos b hb⟩

/-- who holds the owners after `n` levels -/
def ownAt (ap : Nat) (pps : List Nat) (n : Nat) : List Nat := if n = 0 then [ap] else sortedSet (ap :: pps)

theorem spec_levels (hR : Ranks N ap pps) {S : Plain V Kind} {gh : Nat} {vgh : V} (hgh : Is S gh (at1 .gh ap vgh)) {keys : Option (Keys Nat)}
    {Kv : Option (Keys V)} (hk : KeysOpt ap S keys Kv) {s : State Nat} {W : State V} (hs : StateRel ap pps [ap] S s W) :
    ∀ {n : Nat} {R : State V}, levelsC K vgh Kv n W = some R →
    Spec N (ok V ap pps) (levels K ap pps gh keys n s) S fun r S' => StateRel ap pps (ownAt ap pps n) S' r R ∧
      R.me.pt = W.me.pt ∧ R.others.map Work.pt = W.others.map Work.pt
  | 0, R, hc => by
    cases hc
    exact .ret ⟨hs, rfl, rfl⟩
  | n + 1, R, hc => by
    obtain ⟨M, h1, h2⟩ := Option.bind_eq_some_iff.1 hc
    refine Spec.bind (spec_levels hR hgh hk hs h1) fun r S1 l1 hr => ?_
    refine Spec.weaken (spec_level K hR (up hgh) (up hk) hr.1 h2) fun r' S2 l2 hr' => ?_
    exact ⟨by simpa [ownAt] using hr'.1, hr'.2.1.trans hr.2.1, hr'.2.2.trans hr.2.2⟩

/-- what a model's tree is in the program; `at_` hold the owners -/
structure TreeRel (ap : Nat) (pps at_ : List Nat) (S : Plain V Kind) (t : Tree Nat) (T : Tree V) : Prop where
  len : T.splits.length = (ap :: pps).length
  splits : List.Forall₂ (fun (s : Nat × Nat) (e : (Nat × Nat) × (V × V)) =>
    Is S s.1 (at1 (.feat e.1.2) e.1.1 e.2.1) ∧ Is S s.2 (at1 (.thr e.1.2) e.1.1 e.2.2)) t.splits ((ap :: pps).zipIdx.zip T.splits)
  value : Is S t.value (at1 .leafVal ap T.value)
  leaf : Is S t.leaf ⟨.leaf, sortedSet (ap :: pps), T.leaf⟩
  own : Is S t.own ⟨.own, at_, T.own⟩

theorem TreeRel.mono {at_ : List Nat} {S S' : Plain V Kind} {t : Tree Nat} {T : Tree V} (h : TreeRel ap pps at_ S t T) (g : Le S S') :
    TreeRel ap pps at_ S' t T :=
  ⟨h.len, h.splits.imp fun _ _ h => ⟨h.1.mono g, h.2.mono g⟩, h.value.mono g, h.leaf.mono g, h.own.mono g⟩

theorem mapM_pure {A B : Type} (f : A → B) (l : List A) : l.mapM (fun a => some (f a)) = some (l.map f) := by
  induction l with
  | nil => rfl
  | cons a l ih => simp [List.mapM_cons, ih]

theorem spec_konst {ok : Loc V Kind → Nat → Nat → Prop} {S : Plain V Kind} {r : Nat} {v : V} {t : Kind} :
    Spec N ok (konst r v t) S fun y S' => Is S' y (at1 t r v) := call_one (vs := []) .nil rfl

theorem forall₂_zip {A A' B B' : Type} {R : A → A' → Prop} {Q : B → B' → Prop} {as : List A} {as' : List A'} (h : List.Forall₂ R as as') :
    ∀ {bs : List B} {bs' : List B'}, List.Forall₂ Q bs bs' →
    List.Forall₂ (fun e e' => R e.1 e'.1 ∧ Q e.2 e'.2) (as.zip bs) (as'.zip bs') := by
  induction h with
  | nil => intro _ _ _; exact .nil
  | cons h1 _ ih =>
    intro bs bs' hb
    cases hb with
    | nil => exact .nil
    | cons h2 h3 => exact .cons ⟨h1, h2⟩ (ih h3)

/-- split data of the parties, in order -/
theorem splits_rel {S : Plain V Kind} {ws : List (Work Nat)} {Ws : List (Work V)} (h : List.Forall₂ (fun w W => WorkRel ap pps S w W) ws Ws)
    {l : List (Nat × Nat)} (hl : Ws.map (fun W => (W.pt.rank, W.pt.i)) = l) :
    List.Forall₂ (fun (s : Nat × Nat) (e : (Nat × Nat) × (V × V)) =>
      Is S s.1 (at1 (.feat e.1.2) e.1.1 e.2.1) ∧ Is S s.2 (at1 (.thr e.1.2) e.1.1 e.2.2)) (ws.map fun w => (w.feat, w.thr))
      (l.zip (Ws.map fun W => (W.feat, W.thr))) := by
  subst hl
  induction h with
  | nil => exact .nil
  | cons h1 _ ih => exact .cons ⟨h1.feat, h1.thr⟩ ih

theorem spec_build (hR : Ranks N ap pps) {S : Plain V Kind} {gh : Nat} {vgh : V} (hgh : Is S gh (at1 .gh ap vgh)) {gs hs : List Nat}
    {vgs vhs : List V} (hgs : Objs S gs (vgs.map (at1 .ct ap))) (hhs : Objs S hs (vhs.map (at1 .ct ap))) {keys : Option (Keys Nat)}
    {Kv : Option (Keys V)} (hk : KeysOpt ap S keys Kv) {me : Party Nat} {Me : Party V} {others : List (Party Nat)} {Others : List (Party V)}
    (hme : PartyRel ap pps S me Me) (hme0 : Me.i = 0)
    (hothers : List.Forall₂ (fun q Q => PartyRel ap pps S q Q ∧ 0 < Q.i) others Others)
    (hord : (Me :: Others).map (fun q => (q.rank, q.i)) = (ap :: pps).zipIdx) {n : Nat} {T : Tree V}
    (hc : buildC K vgh vgs vhs Kv n Me Others = some T) :
    Spec N (ok V ap pps) (build K ap pps gh gs hs keys n me others) S fun t S' => TreeRel ap pps (ownAt ap pps n) S' t T := by
  simp only [buildC, Option.bind_eq_bind, Option.bind_eq_some_iff, Option.pure_def, Option.some.injEq] at hc
  obtain ⟨s, hlev, leaf, hleaf, value, hvalue, rfl⟩ := hc
  unfold build
  have hall : List.Forall₂ (fun q Q => PartyRel ap pps S q Q) (me :: others) (Me :: Others) := .cons hme (hothers.imp fun _ _ h => h.1)
  refine Spec.bind (spec_each2 (fun (q : Party Nat) (Q : Party V) S => PartyRel ap pps S q Q)
    (fun (e : Party Nat × Nat) (E : Party V × V) S => PartyRel ap pps S e.1 E.1 ∧ Is S e.2 (at1 (.feat E.1.i) E.1.rank E.2))
    (fun _ _ _ _ le h => h.mono le) (fun _ _ _ _ le h => ⟨h.1.mono le, h.2.mono le⟩) hall (mapM_pure (fun Q => (Q, K.featInit)) _) ?_)
    fun fs S1 l1 hfs => ?_
  · intro q Q b' S' le hq _ hb
    cases hb
    rw [hq.rank, hq.i]
    exact Spec.bind spec_konst fun f S'' le' hf => .ret ⟨up hq, hf⟩
  refine Spec.bind (spec_each2 (fun (e : Party Nat × Nat) (E : Party V × V) S => PartyRel ap pps S e.1 E.1 ∧ Is S e.2 (at1 (.feat E.1.i) E.1.rank E.2))
    (fun (w : Work Nat) (W : Work V) S => WorkRel ap pps S w W)
    (fun _ _ _ _ le h => ⟨h.1.mono le, h.2.mono le⟩) (fun _ _ _ _ le h => h.mono le) hfs
    (mapM_pure (fun E => (⟨E.1, E.2, K.thrInit, [], [], none⟩ : Work V)) _) ?_) fun ws S2 l2 hws => ?_
  · intro e E b' S' le he _ hb
    cases hb
    rw [he.1.rank, he.1.i]
    exact Spec.bind spec_konst fun t S'' le' ht => .ret ⟨up he.1, up he.2, ht, .nil, .nil, nofun⟩
  refine Spec.bind spec_konst fun _ S3 l3 _ => ?_
  refine Spec.bind spec_konst fun xl S4 l4 hxl => ?_
  refine Spec.bind spec_konst fun xo S5 l5 hxo => ?_
  refine Spec.bind spec_konst fun xb S6 l6 hxb => ?_
  rw [List.map_map, List.map_cons] at hws
  cases hws with
  | @cons w _ ws _ hw hws =>
    have hws' : List.Forall₂ (fun (w : Work Nat) (W : Work V) => WorkRel ap pps S2 w W ∧ 0 < W.pt.i) ws
        (Others.map ((fun E : Party V × V => (⟨E.1, E.2, K.thrInit, [], [], none⟩ : Work V)) ∘ fun Q => (Q, K.featInit))) := by
      refine forall₂_mem hws fun a b hb h => ⟨h, ?_⟩
      obtain ⟨Q, hQ, rfl⟩ := List.mem_map.1 hb
      obtain ⟨j, hj⟩ := List.mem_iff_getElem?.1 hQ
      obtain ⟨_, _, hx⟩ := forall₂_get hothers.flip hj
      exact hx.2
    refine Spec.bind (spec_each2 (fun (w : Work Nat) (W : Work V) S => WorkRel ap pps S w W ∧ 0 < W.pt.i)
      (fun (w : Work Nat) (W : Work V) S => WorkRel ap pps S w W ∧ 0 < W.pt.i)
      (fun _ _ _ _ le h => ⟨h.1.mono le, h.2⟩) (fun _ _ _ _ le h => ⟨h.1.mono le, h.2⟩) (hws'.imp fun _ _ h => ⟨up h.1, h.2⟩)
      (mapM_pure (fun W => { W with g := vgs, h := vhs }) _) ?_) fun ws1 S7 l7 hws1 => ?_
    · intro q Q b' S' le hq _ hb
      cases hb
      have hr : Q.pt.rank ∈ pps := hq.1.pt.passive hq.2
      have hrN := hR.lt _ hq.1.pt.mem
      rw [hq.1.pt.rank]
      refine Spec.bind (spec_moves (up hgs) hR.ap_lt hrN (show _ ∧ _ from ⟨rfl, hr⟩)) fun g S8 l8 hg => ?_
      refine Spec.bind (spec_moves (up hhs) hR.ap_lt hrN (show _ ∧ _ from ⟨rfl, hr⟩)) fun h S9 l9 hh => ?_
      exact .ret ⟨⟨up hq.1.pt, up hq.1.feat, up hq.1.thr, up hg, hh, fun P hP => by
        obtain ⟨p, e1, e2⟩ := hq.1.parent P hP
        exact ⟨p, e1, up e2⟩⟩, hq.2⟩
    rw [List.map_map] at hws1
    refine Spec.bind (spec_levels K hR (up hgh) (up hk) (s := ⟨w, ws1, xl, xo, xb⟩) ⟨up hw, hme0, hws1, up hxl.here, up hxo, by simp, up hxb.here⟩ hlev)
      fun r S8 l8 hr => ?_
    obtain ⟨hr, hp1, hp2⟩ := hr
    refine Spec.bind spec_konst fun fin S9 l9 hfin => ?_
    refine Spec.bind (call_one (v := leaf) (.cons (up hr.leaf.can) (.cons hfin.can .nil)) hleaf) fun xl0 S10 l10 hxl0 => ?_
    refine Spec.bind (spec_share hxl0 hR.nodup hR.lt fun d hd => (show _ ∧ _ from ⟨rfl, hd⟩)) fun xl' S11 l11 hxl' => ?_
    have hxc : Can ap S11 xl' leaf := ⟨_, hxl', all_in, rfl⟩
    refine Spec.bind (call_one (v := value) (.cons (up hgh.can) (.cons (up hr.bt.can) (.cons hxc .nil))) hvalue) fun xv S12 l12 hxv => ?_
    have hpts : (s.me :: s.others).map (fun W => (W.pt.rank, W.pt.i)) = (ap :: pps).zipIdx := by
      rw [← hord, List.map_cons, List.map_cons, hp1]
      congr 1
      have := congrArg (List.map fun q : Party V => (q.rank, q.i)) hp2
      simpa [Function.comp_def] using this
    refine .ret ⟨?_, splits_rel (.cons (up hr.me) (hr.others.imp fun _ _ h => up h.1)) hpts, hxv, up hxl', up hr.own⟩
    have := congrArg List.length hpts
    simpa using this

/-- A row of the data: position, rank, columns. -/
def RowRel (S : Plain V Kind) (q : Nat × Nat × Nat) (Q : Nat × Nat × V) : Prop :=
  q.1 = Q.1 ∧ q.2.1 = Q.2.1 ∧ Is S q.2.2 (at1 (.data Q.1) Q.2.1 Q.2.2)

theorem RowRel.mono {S S' : Plain V Kind} {q : Nat × Nat × Nat} {Q : Nat × Nat × V} (h : RowRel S q Q) (g : Le S S') : RowRel S' q Q :=
  ⟨h.1, h.2.1, h.2.2.mono g⟩

theorem zip_positions {S : Plain V Kind} : ∀ {rows : List (Nat × Nat × Nat)} {Rows : List (Nat × Nat × V)}, List.Forall₂ (RowRel S) rows Rows →
    ∀ {ts : List (Nat × Nat)} {Ts : List (V × V)} {l : List (Nat × Nat)}, Rows.map (fun Q => (Q.2.1, Q.1)) = l →
    List.Forall₂ (fun (s : Nat × Nat) (e : (Nat × Nat) × (V × V)) =>
      Is S s.1 (at1 (.feat e.1.2) e.1.1 e.2.1) ∧ Is S s.2 (at1 (.thr e.1.2) e.1.1 e.2.2)) ts (l.zip Ts) →
    List.Forall₂ (fun (e : (Nat × Nat × Nat) × (Nat × Nat)) (E : (Nat × Nat × V) × (V × V)) => RowRel S e.1 E.1 ∧
      Is S e.2.1 (at1 (.feat E.1.1) E.1.2.1 E.2.1) ∧ Is S e.2.2 (at1 (.thr E.1.1) E.1.2.1 E.2.2)) (rows.zip ts) (Rows.zip Ts) := by
  intro rows Rows h
  induction h with
  | nil => intro ts Ts l _ _; exact .nil
  | cons h1 _ ih =>
    intro ts Ts l hl ht
    subst hl
    cases Ts with
    | nil => cases ht; exact .nil
    | cons T Ts => cases ht with
      | cons a as => exact .cons ⟨h1, a⟩ (ih rfl as)

theorem spec_predict (hR : Ranks N ap pps) {S : Plain V Kind} {t : Tree Nat} {T : Tree V} {at_ : List Nat} (ht : TreeRel ap pps at_ S t T)
    (hat : ∀ p ∈ ap :: pps, p ∈ at_) {rows : List (Nat × Nat × Nat)} {Rows : List (Nat × Nat × V)} (hrows : List.Forall₂ (RowRel S) rows Rows)
    (hord : Rows.map (fun Q => (Q.2.1, Q.1)) = (ap :: pps).zipIdx) {v : V} (hc : predictC K T Rows = some v) :
    Spec N (ok V ap pps) (predict K ap t rows) S fun y S' => Is S' y (at1 .pred ap v) := by
  have hlen : t.splits.length = T.splits.length := by
    have := ht.splits.length_eq
    rw [this]; simp [ht.len]
  unfold predictC at hc
  unfold predict
  rw [hlen, hrows.length_eq]
  by_cases hl : T.splits.length < Rows.length
  · rw [if_pos hl] at hc; cases hc
  rw [if_neg hl] at hc ⊢
  obtain ⟨ms, hms, hc⟩ := Option.bind_eq_some_iff.1 hc
  refine Spec.bind (spec_each2 (fun (e : (Nat × Nat × Nat) × (Nat × Nat)) (E : (Nat × Nat × V) × (V × V)) S => RowRel S e.1 E.1 ∧
      Is S e.2.1 (at1 (.feat E.1.1) E.1.2.1 E.2.1) ∧ Is S e.2.2 (at1 (.thr E.1.1) E.1.2.1 E.2.2))
    (fun y v S => Can ap S y v) (fun _ _ _ _ le h => ⟨h.1.mono le, h.2.1.mono le, h.2.2.mono le⟩) (fun _ _ _ _ le h => h.mono le)
    (zip_positions hrows hord ht.splits) hms ?_) fun ys S1 l1 hys => ?_
  · intro e E b' S' le he hE hb
    obtain ⟨⟨e1, e2, e3⟩, e4, e5⟩ := he
    rw [e2, e1]
    have hpos : (ap :: pps)[E.1.1]? = some E.1.2.1 := by
      have : (E.1.2.1, E.1.1) ∈ (ap :: pps).zipIdx := hord ▸ List.mem_map.2 ⟨E.1, (List.of_mem_zip hE).1, rfl⟩
      have := List.mem_zipIdx_iff_getElem?.1 this
      simpa using this
    have hm : E.1.2.1 ∈ ap :: pps := List.mem_iff_getElem?.2 ⟨_, hpos⟩
    have c1 : Can E.1.2.1 S' t.leaf T.leaf := ⟨_, up ht.leaf, (mem_sortedSet _ _).2 hm, rfl⟩
    have c2 : Can E.1.2.1 S' t.own T.own := ⟨_, up ht.own, hat _ hm, rfl⟩
    refine Spec.bind (call_one (v := b') (.cons (up e3.can) (.cons (up e4.can) (.cons (up e5.can) (.cons c1 (.cons c2 .nil))))) hb)
      fun xm S2 l2 hxm => ?_
    by_cases ha : E.1.2.1 = ap
    · rw [if_pos ha]; exact .ret (ha ▸ hxm.can)
    · rw [if_neg ha]
      have hi : 0 < E.1.1 := by
        rcases Nat.eq_zero_or_pos E.1.1 with h | h
        · rw [h] at hpos; simp at hpos; exact absurd hpos.symm ha
        · exact h
      exact Spec.weaken (spec_move hxm (by simp) (hR.lt _ hm) hR.ap_lt ⟨hi, hpos, rfl⟩) fun y S' _ hy => hy.can
  have c1 : Can ap S1 t.leaf T.leaf := ⟨_, up ht.leaf, all_in, rfl⟩
  refine call_one (forall₂_snoc (l' := [t.leaf, t.value]) (m' := [T.leaf, T.value]) hys (.cons c1 (.cons (up ht.value.can) .nil))) hc

theorem spec_ciphers {S : Plain V Kind} {keys : Option (Keys Nat)} {Kv : Option (Keys V)} (hk : KeysOpt ap S keys Kv)
    (hkn : Kv = none → keys = none) {t qg qh : Nat}
    {vg vh : V} (hg : Is S qg (at1 .quant ap vg)) (hh : Is S qh (at1 .quant ap vh)) {R : List (V × V)} (hc : ciphersC K t Kv vg vh = some R) :
    Spec N (ok V ap pps) (ciphers K ap t keys qg qh) S fun r S' =>
      Objs S' (r.map Prod.fst) ((R.map Prod.fst).map (at1 .ct ap)) ∧ Objs S' (r.map Prod.snd) ((R.map Prod.snd).map (at1 .ct ap)) := by
  unfold ciphers ciphersC at *
  cases Kv with
  | none =>
    rw [hkn rfl]
    cases hc
    exact .ret ⟨.nil, .nil⟩
  | some k =>
    obtain ⟨k', rfl, hk'⟩ := hk k rfl
    simp only [encryptC] at hc
    simp only [encrypt]
    refine Spec.weaken (spec_each2 (fun (a b : Nat) _ => a = b)
      (fun (r : Nat × Nat) (R : V × V) S => Is S r.1 (at1 .ct ap R.1) ∧ Is S r.2 (at1 .ct ap R.2)) (fun _ _ _ _ _ h => h)
      (fun _ _ _ _ le h => ⟨h.1.mono le, h.2.mono le⟩) (List.forall₂_same.2 fun _ _ => rfl) hc ?_) fun r S' _ hr => ?_
    · intro c c' b' S' le hcc _ hb
      subst hcc
      obtain ⟨x, y, hxy, hb⟩ := two_some hb
      cases hb
      refine Spec.bind (call_several (rs := [x, y]) (.cons (up hg.can) (.cons (up hh.can) (.cons (up hk'.encoder.can) (.cons (up hk'.pk.can) .nil))))
        hxy rfl) fun r S1 l1 hr => ?_
      obtain ⟨a, b, rfl, h1, h2⟩ := objs2 hr
      exact .ret ⟨h1, h2⟩
    · rw [List.map_map, List.map_map]
      exact ⟨List.forall₂_map_left_iff.2 (List.forall₂_map_right_iff.2 (hr.imp fun _ _ h => h.1)),
        List.forall₂_map_left_iff.2 (List.forall₂_map_right_iff.2 (hr.imp fun _ _ h => h.2))⟩

/-- the parties of a program -/
structure Parties (ap : Nat) (pps : List Nat) (S : Plain V Kind) (me : Party Nat) (others : List (Party Nat)) (Me : Party V)
    (Others : List (Party V)) : Prop where
  me : PartyRel ap pps S me Me
  me0 : Me.i = 0
  others : List.Forall₂ (fun q Q => PartyRel ap pps S q Q ∧ 0 < Q.i) others Others
  order : (Me :: Others).map (fun q => (q.rank, q.i)) = (ap :: pps).zipIdx

theorem Parties.mono {S S' : Plain V Kind} {me : Party Nat} {others : List (Party Nat)} {Me : Party V} {Others : List (Party V)}
    (h : Parties ap pps S me others Me Others) (g : Le S S') : Parties ap pps S' me others Me Others :=
  ⟨h.me.mono g, h.me0, h.others.imp fun _ _ h => ⟨h.1.mono g, h.2⟩, h.order⟩

theorem ownAt_all {n : Nat} (h : 0 < n ∨ pps = []) : ∀ p ∈ ap :: pps, p ∈ ownAt ap pps n := by
  intro p hp
  unfold ownAt
  by_cases hn : n = 0
  · rw [if_pos hn]
    rcases h with h | h
    · omega
    · subst h; exact hp
  · rw [if_neg hn]; exact (mem_sortedSet _ _).2 hp

theorem spec_round (hR : Ranks N ap pps) {S : Plain V Kind} {label : Nat} {vlab : V} (hl : Is S label (at1 .label ap vlab))
    {keys : Option (Keys Nat)} {Kv : Option (Keys V)} (hk : KeysOpt ap S keys Kv) (hkn : Kv = none → keys = none) {me : Party Nat} {Me : Party V}
    {others : List (Party Nat)} {Others : List (Party V)} (hp : Parties ap pps S me others Me Others) {depth t : Nat}
    (hd : 0 < depth ∨ pps = []) {pred : Nat} {vpred : V} (hpred : Is S pred (at1 .pred ap vpred)) {R : Tree V × V}
    (hc : roundC K vlab Kv depth Me Others t vpred = some R) :
    Spec N (ok V ap pps) (round K ap pps label keys depth me others t pred) S fun r S' =>
      TreeRel ap pps (ownAt ap pps depth) S' r.1 R.1 ∧ Is S' r.2 (at1 .pred ap R.2) := by
  obtain ⟨gh, qg, qh, hgh, hc⟩ := three_some hc
  simp only [Option.bind_eq_bind, Option.bind_eq_some_iff, Option.pure_def, Option.some.injEq] at hc
  obtain ⟨cts, hcts, tree, htree, p, hpr, pred', hpred', rfl⟩ := hc
  unfold round
  refine Spec.bind (call_several (rs := [gh, qg, qh]) (.cons hl.can (.cons hpred.can .nil)) hgh rfl) fun r S1 l1 hr => ?_
  obtain ⟨a, b, c, rfl, h1, h2, h3⟩ := objs3 hr
  simp only [take3]
  refine Spec.bind (spec_ciphers K (up hk) hkn (up h2) (up h3) hcts) fun xc S2 l2 hxc => ?_
  refine Spec.bind (spec_build K hR (up h1) hxc.1 hxc.2 (up hk) (up hp.me) hp.me0 (hp.others.imp fun _ _ h => ⟨up h.1, h.2⟩) hp.order htree)
    fun xt S3 l3 hxt => ?_
  have hrows : List.Forall₂ (RowRel S3) ((me :: others).map fun q : Party Nat => (q.i, q.rank, q.data))
      ((Me :: Others).map fun q : Party V => (q.i, q.rank, q.data)) := by
    have : List.Forall₂ (fun q Q => PartyRel ap pps S3 q Q) (me :: others) (Me :: Others) :=
      .cons (up hp.me) (hp.others.imp fun _ _ h => up h.1)
    exact List.forall₂_map_left_iff.2 (List.forall₂_map_right_iff.2 (this.imp fun _ _ h => ⟨h.i, h.rank, h.data⟩))
  refine Spec.bind (spec_predict K hR hxt (ownAt_all hd) hrows (by simpa [Function.comp_def] using hp.order) hpr) fun xp S4 l4 hxp => ?_
  refine Spec.bind (call_one (v := pred') (.cons (up hpred.can) (.cons hxp.can .nil)) hpred') fun xq S5 l5 hxq => ?_
  exact .ret ⟨up hxt, hxq⟩

theorem spec_rounds (hR : Ranks N ap pps) {S : Plain V Kind} {label : Nat} {vlab : V} (hl : Is S label (at1 .label ap vlab))
    {keys : Option (Keys Nat)} {Kv : Option (Keys V)} (hk : KeysOpt ap S keys Kv) (hkn : Kv = none → keys = none) {me : Party Nat} {Me : Party V}
    {others : List (Party Nat)} {Others : List (Party V)} (hp : Parties ap pps S me others Me Others) {depth : Nat}
    (hd : 0 < depth ∨ pps = []) {pred : Nat} {vpred : V} (hpred : Is S pred (at1 .pred ap vpred)) :
    ∀ {n : Nat} {R : List (Tree V) × V}, roundsC K vlab Kv depth Me Others n vpred = some R →
    Spec N (ok V ap pps) (rounds K ap pps label keys depth me others n pred) S fun r S' =>
      List.Forall₂ (TreeRel ap pps (ownAt ap pps depth) S') r.1 R.1 ∧ Is S' r.2 (at1 .pred ap R.2)
  | 0, R, hc => by
    cases hc
    exact .ret ⟨.nil, hpred⟩
  | n + 1, R, hc => by
    obtain ⟨M, h1, h2⟩ := Option.bind_eq_some_iff.1 hc
    obtain ⟨q, h3, rfl⟩ := Option.map_eq_some_iff.1 h2
    refine Spec.bind (spec_rounds hR hl hk hkn hp hd hpred h1) fun r S1 l1 hr => ?_
    refine Spec.bind (spec_round K hR (up hl) (up hk) hkn (up hp) hd hr.2 h3) fun r' S2 l2 hr' => ?_
    exact .ret ⟨forall₂_snoc (hr.1.imp fun _ _ h => up h) (.cons hr'.1 .nil), hr'.2⟩

theorem spec_keygen {S : Plain V Kind} {R : Option (Keys V)} {need : Bool} (hn : need = true ↔ pps ≠ []) (hc : keysC K need = some R) :
    Spec N (ok V ap pps) (keygen K ap pps) S fun r S' => KeysOpt ap S' r R ∧ (R = none → r = none) := by
  unfold keysC at hc
  unfold keygen
  by_cases hp : pps = []
  · rw [if_pos hp]
    rw [if_neg (by rw [hn]; simpa using hp)] at hc
    cases hc
    exact .ret ⟨nofun, fun _ => rfl⟩
  · rw [if_neg hp]
    rw [if_pos (hn.2 hp)] at hc
    split at hc
    next pk sk rk gk enc he =>
      cases hc
      refine Spec.bind (call_several (vs := []) (rs := [pk, sk, rk, gk, enc]) .nil he rfl) fun r S1 l1 hr => ?_
      cases hr with
      | cons a1 hr => cases hr with
        | cons a2 hr => cases hr with
          | cons a3 hr => cases hr with
            | cons a4 hr => cases hr with
              | cons a5 hr =>
                cases hr
                refine .ret ⟨fun q hq => ?_, nofun⟩
                cases hq
                exact ⟨_, rfl, a1, a2, a3, a4, a5⟩
    · cases hc

/-- what a model is in the program -/
structure ModelRel (ap : Nat) (pps at_ : List Nat) (S : Plain V Kind) (m : Model Nat) (M : Model V) : Prop where
  trees : List.Forall₂ (TreeRel ap pps at_ S) m.trees M.trees
  base : Is S m.base (at1 .base ap M.base)

theorem ModelRel.mono {at_ : List Nat} {S S' : Plain V Kind} {m : Model Nat} {M : Model V} (h : ModelRel ap pps at_ S m M) (g : Le S S') :
    ModelRel ap pps at_ S' m M := ⟨h.trees.imp fun _ _ h => h.mono g, h.base.mono g⟩

theorem prepC_party {Q : Nat × Nat × V} {P : Party V} (h : prepC K Q = some P) : P.i = Q.1 ∧ P.rank = Q.2.1 ∧ P.data = Q.2.2 := by
  simp only [prepC, Option.bind_eq_bind, Option.bind_eq_some_iff, Option.pure_def, Option.some.injEq] at h
  obtain ⟨_, _, _, _, rfl⟩ := h
  exact ⟨rfl, rfl, rfl⟩

theorem spec_fit (hR : Ranks N ap pps) {S : Plain V Kind} {label : Nat} {vlab : V} (hl : Is S label (at1 .label ap vlab))
    {rows : List (Nat × Nat × Nat)} {Rows : List (Nat × Nat × V)} (hrows : List.Forall₂ (RowRel S) rows Rows)
    (hord : Rows.map (fun Q => (Q.2.1, Q.1)) = (ap :: pps).zipIdx) {depth n : Nat} (hd : 0 < depth ∨ pps = []) {M : Model V}
    (hc : fitC K vlab Rows depth n = some M) :
    Spec N (ok V ap pps) (fit K ap pps label rows depth n) S fun m S' => ModelRel ap pps (ownAt ap pps depth) S' m M := by
  simp only [fitC, Option.bind_eq_bind, Option.bind_eq_some_iff] at hc
  obtain ⟨ps, hps, base, hbase, p, hp, hc⟩ := hc
  unfold fit
  have hpos : ∀ Q ∈ Rows, (ap :: pps)[Q.1]? = some Q.2.1 := by
    intro Q hQ
    have : (Q.2.1, Q.1) ∈ (ap :: pps).zipIdx := hord ▸ List.mem_map.2 ⟨Q, hQ, rfl⟩
    simpa using List.mem_zipIdx_iff_getElem?.1 this
  have hord' : ps.map (fun q => (q.rank, q.i)) = (ap :: pps).zipIdx := by
    rw [← hord]
    exact (forall₂_map_eq (mapM_forall₂ hps) (fun q => (q.rank, q.i)) (fun Q => (Q.2.1, Q.1)) fun a b h => by
      obtain ⟨h1, h2, _⟩ := prepC_party K h
      rw [h1, h2]).symm
  refine Spec.bind (spec_each2 (fun q Q S => RowRel S q Q) (fun (q : Party Nat) (Q : Party V) S => PartyRel ap pps S q Q)
    (fun _ _ _ _ le h => h.mono le) (fun _ _ _ _ le h => h.mono le) hrows hps ?_) fun xs S1 l1 hxs => ?_
  · intro q Q P S' le hq hQ hP
    simp only [prepC, Option.bind_eq_bind, Option.bind_eq_some_iff, Option.pure_def, Option.some.injEq] at hP
    obtain ⟨b, hb, x, hx, rfl⟩ := hP
    obtain ⟨e1, e2, e3⟩ := hq
    rw [e1, e2]
    refine Spec.bind (call_one (v := b) (.cons (up e3.can) .nil) hb) fun xb S2 l2 hxb => ?_
    refine Spec.bind (call_one (v := x) (.cons (up e3.can) (.cons hxb.can .nil)) hx) fun xx S3 l3 hxx => ?_
    exact .ret ⟨rfl, rfl, hpos Q hQ, up e3, up hxb, hxx⟩
  cases hxs with
  | nil => simp at hord'
  | @cons me Me others Others hme hothers =>
    simp only [trainC, Option.bind_eq_some_iff] at hc
    obtain ⟨keys, hkeys, r, hr, hc⟩ := hc
    cases hc
    have hz : (Me.rank, Me.i) = (ap, 0) ∧ Others.map (fun q => (q.rank, q.i)) = pps.zipIdx 1 := by simpa using hord'
    refine Spec.bind (call_one (v := base) (.cons (up hl.can) .nil) hbase) fun xb S2 l2 hxb => ?_
    refine Spec.bind (call_one (v := p) (.cons (up hxb.can) .nil) hp) fun xp S3 l3 hxp => ?_
    have hneed : (!Others.isEmpty) = true ↔ pps ≠ [] := by
      have := congrArg List.length hz.2
      cases Others <;> cases pps <;> simp at this ⊢
    refine Spec.bind (spec_keygen K hneed hkeys) fun xk S4 l4 hxk => ?_
    have hp : Parties ap pps S4 me others Me Others := by
      refine ⟨up hme, by simpa using congrArg Prod.snd hz.1, forall₂_mem hothers fun a b hb h => ⟨up h, ?_⟩, hord'⟩
      have : (b.rank, b.i) ∈ pps.zipIdx 1 := hz.2 ▸ List.mem_map.2 ⟨b, hb, rfl⟩
      have h := List.le_snd_of_mem_zipIdx this
      exact h
    refine Spec.bind (spec_rounds K hR (up hl) hxk.1 hxk.2 hp hd (up hxp) hr) fun xr S5 l5 hxr => ?_
    exact .ret ⟨hxr.1, up hxb⟩

theorem spec_addTrees (hR : Ranks N ap pps) {at_ : List Nat} (hat : ∀ p ∈ ap :: pps, p ∈ at_) {rows : List (Nat × Nat × Nat)}
    {Rows : List (Nat × Nat × V)} (hord : Rows.map (fun Q => (Q.2.1, Q.1)) = (ap :: pps).zipIdx) {v : V} :
    ∀ {ts : List (Tree Nat)} {Ts : List (Tree V)} {S : Plain V Kind} {y : Nat} {vy : V}, List.Forall₂ (TreeRel ap pps at_ S) ts Ts →
    List.Forall₂ (RowRel S) rows Rows → Is S y (at1 .pred ap vy) → addTreesC K Rows Ts vy = some v →
    Spec N (ok V ap pps) (addTrees K ap rows ts y) S fun y S' => Is S' y (at1 .pred ap v)
  | [], [], S, y, vy, _, _, hy, hc => by cases hc; exact .ret hy
  | t :: ts, T :: Ts, S, y, vy, hts, hrows, hy, hc => by
    cases hts with
    | cons ht hts =>
      simp only [addTreesC, Option.bind_eq_bind, Option.bind_eq_some_iff] at hc
      obtain ⟨p, hp, y', hy', hc⟩ := hc
      simp only [addTrees]
      refine Spec.bind (spec_predict K hR ht hat hrows hord hp) fun xp S1 l1 hxp => ?_
      refine Spec.bind (call_one (v := y') (t := .pred) (.cons (up hy.can) (.cons hxp.can .nil)) hy') fun xy S2 l2 hxy => ?_
      exact spec_addTrees hR hat hord (hts.imp fun _ _ h => up h) (hrows.imp fun _ _ h => up h) hxy hc

theorem spec_pred (hR : Ranks N ap pps) {at_ : List Nat} (hat : ∀ p ∈ ap :: pps, p ∈ at_) {rows : List (Nat × Nat × Nat)}
    {Rows : List (Nat × Nat × V)} (hord : Rows.map (fun Q => (Q.2.1, Q.1)) = (ap :: pps).zipIdx) {S : Plain V Kind} {m : Model Nat} {M : Model V}
    (hm : ModelRel ap pps at_ S m M) (hrows : List.Forall₂ (RowRel S) rows Rows) {v : V} (hc : predC K M Rows = some v) :
    Spec N (ok V ap pps) (pred K ap m rows) S fun y S' => Is S' y (at1 .prob ap v) := by
  simp only [predC, Option.bind_eq_bind, Option.bind_eq_some_iff] at hc
  obtain ⟨y, hy, z, hz, hc⟩ := hc
  unfold pred
  refine Spec.bind (call_one (v := y) (.cons hm.base.can .nil) hy) fun xy S1 l1 hxy => ?_
  refine Spec.bind (spec_addTrees K hR hat hord (hm.trees.imp fun _ _ h => up h) (hrows.imp fun _ _ h => up h) hxy hz) fun xz S2 l2 hxz => ?_
  exact call_one (.cons hxz.can .nil) hc

theorem spec_eval (hR : Ranks N ap pps) {at_ : List Nat} (hat : ∀ p ∈ ap :: pps, p ∈ at_) {rows : List (Nat × Nat × Nat)}
    {Rows : List (Nat × Nat × V)} (hord : Rows.map (fun Q => (Q.2.1, Q.1)) = (ap :: pps).zipIdx) {S : Plain V Kind} {m : Model Nat} {M : Model V}
    (hm : ModelRel ap pps at_ S m M) (hrows : List.Forall₂ (RowRel S) rows Rows) {label : Nat} {vlab : V}
    (hl : Is S label (at1 .label ap vlab)) {v : V} (hc : evalC K M Rows vlab = some v) :
    Spec N (ok V ap pps) (eval K ap m rows label) S fun y S' => Is S' y (at1 .score ap v) := by
  simp only [evalC, Option.bind_eq_bind, Option.bind_eq_some_iff] at hc
  obtain ⟨y, hy, hc⟩ := hc
  unfold eval
  refine Spec.bind (spec_pred K hR hat hord hm hrows hy) fun xy S1 l1 hxy => ?_
  exact call_one (.cons hxy.can (.cons (up hl.can) .nil)) hc

end
end Verif.Sgb.Protocol
