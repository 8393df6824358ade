/-
The configurations set on the nodes (C50), quantization preserving layers (C84) and fused layers (C85).
-/
import Verif.Candidates.Consumers

namespace MCT.CandSpec
open MCT.Py MCT.Tpc MCT.Cand

/-- The bits by which candidates are ordered: those of the kernel and then those of the activation, or only
those of the activation without a kernel. -/
def Above (kernel : Option Name) (a b : Cnd) : Prop :=
  match kernel with
  | none => b.act.nBits ≤ a.act.nBits
  | some k => ∃ x y, a.weights.getAttr (.named k) = some x ∧ b.weights.getAttr (.named k) = some y ∧
      (y.nBits < x.nBits ∨ y.nBits = x.nBits ∧ b.act.nBits ≤ a.act.nBits)

/-- The settings an operator configuration gives to a weight attribute: those listed under the only name
contained in the name of the attribute (for a positional attribute, under the only name that contains
`pos_attr`), and the default settings when no name fits. -/
def SettingsOf (o : OpCfg Name) (a : Attr) (ac : AttrCfg) : Prop :=
  let fits := fun k : Name => match a with
    | .named s => k <:+: s
    | .pos _ => posAttr <:+: k
  (∃ k, (k, ac) ∈ o.attrs ∧ fits k ∧ ∀ p ∈ o.attrs, fits p.1 → p = (k, ac)) ∨
  ((∀ p ∈ o.attrs, ¬ fits p.1) ∧ ac = o.defaultAttr)

/-- A candidate made from a configuration of the options: its activation settings are those of the
configuration, and each weight attribute has the settings the configuration gives to it. -/
def MadeFrom (attrs : List Attr) (o : OpCfg Name) (c : Cnd) : Prop :=
  c.act.method = o.actMethod ∧ c.act.fnMethod = o.actMethod ∧ c.act.nBits = o.actBits ∧
  c.act.signedness = o.signedness ∧ c.weights.simd = o.simd ∧
  ∀ a ∈ attrs, ∃ ac, SettingsOf o a ac ∧
    (match a with
      | .pos i => c.weights.positional.get i
      | .named s => c.weights.named.get s) = some ⟨ac.method, ac.nBits, ac.perChannel, ac.enabled⟩

/-- The layer quantizes its own output. -/
def QuantizesItself (cfgs : Dict Nat NodeCfg) (n : Nat) : Prop :=
  ∃ c, cfgs.get n = some c ∧ c.base.act.mode = .quant

/-- The quantization of the output of a layer is that of a layer that quantizes its own output: the layer
itself, or the one found by following preserving layers, each with one input. -/
inductive Source (g : GGraph) (cfgs : Dict Nat NodeCfg) : Nat → Nat → Prop
  | own {n} : QuantizesItself cfgs n → Source g cfgs n n
  | pass {n p s c} : cfgs.get n = some c → c.base.act.mode = .preserve → g.prev n = [p] →
      Source g cfgs p s → Source g cfgs n s

end MCT.CandSpec

namespace MCT.Cand
open MCT.Py MCT.Tpc MCT.CandSpec

set_option linter.unusedSectionVars false
set_option linter.unusedVariables false

/-! ### Sorting -/

theorem keyLe_total (a b : Nat × Nat) : keyLe a b = true ∨ keyLe b a = true := by
  simp only [keyLe, decide_eq_true_iff]; omega

theorem keyLe_trans {a b c : Nat × Nat} (h1 : keyLe a b = true) (h2 : keyLe b c = true) : keyLe a c = true := by
  simp only [keyLe, decide_eq_true_iff] at *; omega

theorem insertDesc_perm (x : (Nat × Nat) × Cnd) (l : List ((Nat × Nat) × Cnd)) :
    (insertDesc x l).Perm (x :: l) := by
  induction l with
  | nil => exact List.Perm.refl _
  | cons y ys ih =>
    simp only [insertDesc]
    split
    · exact List.Perm.refl _
    · exact (List.Perm.cons y ih).trans (List.Perm.swap x y ys)

theorem insertDesc_sorted (x : (Nat × Nat) × Cnd) (l : List ((Nat × Nat) × Cnd))
    (h : l.Pairwise (fun a b => keyLe b.1 a.1 = true)) :
    (insertDesc x l).Pairwise (fun a b => keyLe b.1 a.1 = true) := by
  induction l with
  | nil => simp [insertDesc]
  | cons y ys ih =>
    simp only [insertDesc]
    rw [List.pairwise_cons] at h
    split
    · rename_i hle
      rw [List.pairwise_cons]
      refine ⟨?_, List.pairwise_cons.mpr h⟩
      intro z hz
      rcases List.mem_cons.mp hz with hz | hz
      · subst hz; exact hle
      · exact keyLe_trans (h.1 z hz) hle
    · rename_i hle
      rw [List.pairwise_cons]
      refine ⟨?_, ih h.2⟩
      intro z hz
      rcases List.mem_cons.mp ((insertDesc_perm x ys).subset hz) with hz | hz
      · subst hz
        rcases keyLe_total z.1 y.1 with h | h
        · exact h
        · exact absurd h hle
      · exact h.1 z hz

theorem sort_perm (l : List ((Nat × Nat) × Cnd)) : (l.foldr insertDesc []).Perm l := by
  induction l with
  | nil => exact List.Perm.refl _
  | cons x l ih =>
    rw [List.foldr_cons]
    exact (insertDesc_perm x _).trans (List.Perm.cons x ih)

theorem sort_sorted (l : List ((Nat × Nat) × Cnd)) :
    (l.foldr insertDesc []).Pairwise (fun a b => keyLe b.1 a.1 = true) := by
  induction l with
  | nil => exact List.Pairwise.nil
  | cons x l ih => exact insertDesc_sorted x _ ih

theorem withKeys_result {kernel : Option Name} {cs : List Cnd} {ks : List ((Nat × Nat) × Cnd)}
    (h : withKeys kernel cs = some ks) :
    ks.map (·.2) = cs ∧ ∀ p ∈ ks, sortKey kernel p.2 = some p.1 := by
  induction cs generalizing ks with
  | nil => simp only [withKeys, Option.some.injEq] at h; subst h; simp
  | cons c cs ih =>
    simp only [withKeys] at h
    cases hk : sortKey kernel c with
    | none => rw [hk] at h; simp at h
    | some k =>
      rw [hk] at h
      simp only [Option.map_eq_some_iff] at h
      obtain ⟨r, h1, h2⟩ := h
      subst h2
      obtain ⟨i1, i2⟩ := ih h1
      refine ⟨by simp [i1], ?_⟩
      intro p hp
      rcases List.mem_cons.mp hp with hp | hp
      · subst hp; exact hk
      · exact i2 p hp

theorem sortCands_result {kernel : Option Name} {cs ds : List Cnd} (h : sortCands kernel cs = some ds) :
    ds.Perm cs ∧ ds.Pairwise (Above kernel) := by
  unfold sortCands at h
  simp only [Option.map_eq_some_iff] at h
  obtain ⟨ks, h1, h2⟩ := h
  subst h2
  obtain ⟨i1, i2⟩ := withKeys_result h1
  refine ⟨?_, ?_⟩
  · rw [← i1]; exact (sort_perm ks).map _
  · rw [List.pairwise_map]
    refine List.Pairwise.imp_of_mem ?_ (sort_sorted ks)
    intro a b ha hb hle
    have ka := i2 a ((sort_perm ks).subset ha)
    have kb := i2 b ((sort_perm ks).subset hb)
    unfold sortKey at ka kb
    unfold Above
    cases kernel with
    | none =>
      simp only [Option.some.injEq] at ka kb
      rw [← ka, ← kb] at hle
      simp only [keyLe, decide_eq_true_iff] at hle
      simp only
      omega
    | some k =>
      simp only [Option.map_eq_some_iff] at ka kb
      obtain ⟨x, hx, ex⟩ := ka
      obtain ⟨y, hy, ey⟩ := kb
      rw [← ex, ← ey] at hle
      simp only [keyLe, decide_eq_true_iff] at hle
      exact ⟨x, y, hx, hy, hle⟩

/-! ### Candidates -/

theorem addAttrs_result {op : OpCfg Name} {attrs : List Attr} {w w' : WCfg}
    (h : addAttrs op attrs w = some w') :
    w'.simd = w.simd ∧
    (∀ i, .pos i ∉ attrs → w'.positional.get i = w.positional.get i) ∧
    (∀ s, .named s ∉ attrs → w'.named.get s = w.named.get s) ∧
    ∀ a ∈ attrs, ∃ ac, attrCfgOf op a = some ac ∧
      (match a with
        | .pos i => w'.positional.get i
        | .named s => w'.named.get s) = some (mkWAttr ac) := by
  induction attrs generalizing w with
  | nil => simp only [addAttrs, Option.some.injEq] at h; subst h; simp
  | cons a as ih =>
    simp only [addAttrs] at h
    cases hc : attrCfgOf op a with
    | none => rw [hc] at h; simp at h
    | some c =>
      rw [hc] at h
      simp only at h
      cases a with
      | pos i =>
        simp only at h
        obtain ⟨h1, h2, h3, h4⟩ := ih h
        refine ⟨h1, ?_, ?_, ?_⟩
        · intro j hj
          simp only [List.mem_cons, Attr.pos.injEq, not_or] at hj
          rw [h2 j hj.2, Dict.get_set, if_neg hj.1]
        · intro s hs
          simp only [List.mem_cons, reduceCtorEq, false_or] at hs
          exact h3 s hs
        · intro b hb
          by_cases hba : b ∈ as
          · exact h4 b hba
          · rcases List.mem_cons.mp hb with hb | hb
            · subst hb
              refine ⟨c, hc, ?_⟩
              simp only
              rw [h2 i hba, Dict.get_set, if_pos rfl]
            · exact absurd hb hba
      | named s =>
        simp only at h
        obtain ⟨h1, h2, h3, h4⟩ := ih h
        refine ⟨h1, ?_, ?_, ?_⟩
        · intro j hj
          simp only [List.mem_cons, reduceCtorEq, false_or] at hj
          exact h2 j hj
        · intro t ht
          simp only [List.mem_cons, Attr.named.injEq, not_or] at ht
          rw [h3 t ht.2, Dict.get_set, if_neg ht.1]
        · intro b hb
          by_cases hba : b ∈ as
          · exact h4 b hba
          · rcases List.mem_cons.mp hb with hb | hb
            · subst hb
              refine ⟨c, hc, ?_⟩
              simp only
              rw [h3 s hba, Dict.get_set, if_pos rfl]
            · exact absurd hb hba

theorem attrCfgOf_settings {o : OpCfg Name} {a : Attr} {ac : AttrCfg} (h : attrCfgOf o a = some ac) :
    SettingsOf o a ac := by
  unfold attrCfgOf at h
  unfold SettingsOf
  simp only at h ⊢
  have key : ∀ (fits : Name → Prop) (f : Name × AttrCfg → Bool), (∀ p, f p = true ↔ fits p.1) →
      (match o.attrs.filter f with
        | [] => some o.defaultAttr
        | [p] => some p.2
        | _ => none) = some ac →
      (∃ k, (k, ac) ∈ o.attrs ∧ fits k ∧ ∀ p ∈ o.attrs, fits p.1 → p = (k, ac)) ∨
      ((∀ p ∈ o.attrs, ¬ fits p.1) ∧ ac = o.defaultAttr) := by
    intro fits f hf h
    have hm : ∀ p, p ∈ o.attrs.filter f ↔ p ∈ o.attrs ∧ fits p.1 := by
      intro p; rw [List.mem_filter, hf]
    split at h
    · rename_i he
      simp only [Option.some.injEq] at h
      refine Or.inr ⟨?_, h.symm⟩
      intro p hp hfp
      have := (hm p).mpr ⟨hp, hfp⟩
      rw [he] at this
      simp at this
    · rename_i p he
      simp only [Option.some.injEq] at h
      obtain ⟨k, c⟩ := p
      simp only at h
      subst h
      have h1 := (hm (k, c)).mp (by rw [he]; simp)
      refine Or.inl ⟨k, h1.1, h1.2, ?_⟩
      intro p hp hfp
      have := (hm p).mpr ⟨hp, hfp⟩
      rw [he] at this
      simpa using this
    · simp at h
  cases a with
  | named s => exact key (fun k => k <:+: s) _ (fun p => hasSub_iff _ _) h
  | pos i => exact key (fun k => posAttr <:+: k) _ (fun p => hasSub_iff _ _) h

theorem mkCnd_made {o : OpCfg Name} {attrs : List Attr} {c : Cnd} (h : mkCnd o attrs = some c) :
    MadeFrom attrs o c ∧ (c.act.mode = .quant ↔ o.enableAct = true) ∧
      (c.act.mode = .preserve ↔ o.preserving = true) ∧
      (c.act.mode = .quant ∨ c.act.mode = .preserve ∨ c.act.mode = .noQuant) := by
  unfold mkCnd at h
  split at h
  · simp at h
  · cases ha : mkAct o o.actMethod with
    | none => rw [ha] at h; simp at h
    | some a =>
      rw [ha] at h
      simp only at h
      cases hw : mkWCfg o attrs with
      | none => rw [hw] at h; simp at h
      | some w =>
        rw [hw] at h
        simp only [Option.some.injEq] at h
        subst h
        obtain ⟨h1, _, _, h4⟩ := addAttrs_result hw
        unfold mkAct at ha
        split at ha
        · simp at ha
        · rename_i hb
          simp only [Option.some.injEq] at ha
          subst ha
          refine ⟨⟨rfl, rfl, rfl, rfl, h1, fun a ha => ?_⟩, ?_⟩
          · obtain ⟨ac, e1, e2⟩ := h4 a ha
            exact ⟨ac, attrCfgOf_settings e1, e2⟩
          · cases he : o.enableAct <;> cases hp : o.preserving <;> simp_all

theorem mkCnds_forall {attrs : List Attr} {os : List (OpCfg Name)} {cs : List Cnd}
    (h : mkCnds attrs os = some cs) : List.Forall₂ (fun o c => mkCnd o attrs = some c) os cs := by
  induction os generalizing cs with
  | nil => simp only [mkCnds, Option.some.injEq] at h; subst h; exact List.Forall₂.nil
  | cons n ns ih =>
    simp only [mkCnds] at h
    cases hc : mkCnd n attrs with
    | none => rw [hc] at h; simp at h
    | some b =>
      rw [hc] at h
      simp only [Option.map_eq_some_iff] at h
      obtain ⟨r, h1, h2⟩ := h
      subst h2
      exact List.Forall₂.cons hc (ih h1)

theorem setMode_same {a b : Cnd} (h : a.same b = true) (m : Mode) : (a.setMode m).same (b.setMode m) = true := by
  unfold Cnd.same ActCfg.same Cnd.setMode at *
  simp_all

theorem setMode_made {attrs : List Attr} {o : OpCfg Name} {c : Cnd} (m : Mode) (h : MadeFrom attrs o c) :
    MadeFrom attrs o (c.setMode m) := h

theorem setMode_above {kernel : Option Name} {l : List Cnd} (m : Mode) (h : l.Pairwise (Above kernel)) :
    (l.map (Cnd.setMode m)).Pairwise (Above kernel) := by
  rw [List.pairwise_map]
  refine h.imp ?_
  intro a b hab
  cases kernel <;> exact hab

/-- What a configuration set on a node satisfies. -/
structure GoodCfg (g : GGraph) (n : Nat) (cfg : NodeCfg) : Prop where
  made : ∀ c ∈ cfg.cands, ∃ q o, (g.info n).options = some q ∧ o ∈ q.configs ∧ MadeFrom (g.info n).attrs o c ∧
    ∀ m, Consumer g n m → Reads g m c.act.nBits
  complete : ∀ q, (g.info n).options = some q → ∀ o ∈ q.configs,
    (∀ m, Consumer g n m → Reads g m o.actBits) → ∃ c ∈ cfg.cands, MadeFrom (g.info n).attrs o c
  base : ∃ c ∈ cfg.cands, cfg.base.same c = true
  mode : ∀ c ∈ cfg.cands, c.act.mode = cfg.base.act.mode
  sorted : cfg.cands.Pairwise (Above (g.info n).kernel)

theorem GoodCfg.setMode {g : GGraph} {n : Nat} {cfg : NodeCfg} (h : GoodCfg g n cfg) (m : Mode) :
    GoodCfg g n (cfg.setMode m) where
  made := by
    intro c hc
    obtain ⟨d, hd, e⟩ := List.mem_map.mp hc
    subst e
    exact h.made d hd
  complete := by
    intro q hq o ho hr
    obtain ⟨c, hc, hm⟩ := h.complete q hq o ho hr
    exact ⟨_, List.mem_map.mpr ⟨c, hc, rfl⟩, hm⟩
  base := by
    obtain ⟨c, hc, hs⟩ := h.base
    exact ⟨_, List.mem_map.mpr ⟨c, hc, rfl⟩, setMode_same hs m⟩
  mode := by
    intro c hc
    obtain ⟨d, hd, e⟩ := List.mem_map.mp hc
    subst e; rfl
  sorted := setMode_above m h.sorted

theorem mkNodeCfg_result {b : Cnd} {cs : List Cnd} {cfg : NodeCfg} (h : mkNodeCfg b cs = some cfg) :
    cfg = ⟨b, cs⟩ ∧ (∃ c ∈ cs, b.same c = true) ∧ ∀ c ∈ cs, c.act.mode = b.act.mode := by
  unfold mkNodeCfg at h
  split at h
  · simp at h
  · rename_i h1
    split at h
    · simp at h
    · rename_i h2
      split at h
      · simp at h
      · simp only [Option.some.injEq] at h
        refine ⟨h.symm, ?_, ?_⟩
        · rw [Bool.not_eq_false, List.any_eq_true] at h1; exact h1
        · intro c hc
          by_contra hne
          exact h2 (List.any_eq_true.mpr ⟨c, hc, by simpa using hne⟩)

theorem nodeCfg_good {g : GGraph} {fuel n : Nat} {cfg : NodeCfg} (h : nodeCfg g fuel n = some cfg) :
    GoodCfg g n cfg ∧ ((g.info n).hasAct = false → cfg.base.act.mode = .noQuant) ∧
      (cfg.base.act.mode = .quant ∨ cfg.base.act.mode = .preserve ∨ cfg.base.act.mode = .noQuant) := by
  unfold nodeCfg at h
  cases hq : (g.info n).options with
  | none => rw [hq] at h; simp at h
  | some q =>
    rw [hq] at h
    simp only at h
    cases hf : filterQco g fuel n q with
    | none => rw [hf] at h; simp at h
    | some r =>
      obtain ⟨b, os⟩ := r
      rw [hf] at h
      simp only at h
      cases hcs : mkCnds (g.info n).attrs os with
      | none => rw [hcs] at h; simp at h
      | some cs =>
        rw [hcs] at h
        simp only at h
        cases hsp : mkCnd b (g.info n).attrs with
        | none => rw [hsp] at h; simp at h
        | some sp =>
          rw [hsp] at h
          simp only at h
          cases hmk : mkNodeCfg sp cs with
          | none => rw [hmk] at h; simp at h
          | some cfg0 =>
            rw [hmk] at h
            simp only at h
            obtain ⟨e, hbase, hmode⟩ := mkNodeCfg_result hmk
            subst e
            simp only at h
            cases hso : sortCands (g.info n).kernel cs with
            | none => rw [hso] at h; simp at h
            | some sorted =>
              rw [hso] at h
              simp only at h
              obtain ⟨hperm, hsorted⟩ := sortCands_result hso
              obtain ⟨hsub, _, hread⟩ := C50_readable g fuel n q b os hf
              have hall := mkCnds_forall hcs
              have good : GoodCfg g n ⟨sp, sorted⟩ := by
                refine ⟨?_, ?_, ?_, ?_, hsorted⟩
                · intro c hc
                  obtain ⟨o, ho, hoc⟩ := forall2_right hall (hperm.subset hc)
                  obtain ⟨hm, _⟩ := mkCnd_made hoc
                  refine ⟨q, o, hq, hsub.subset ho, hm, ?_⟩
                  rw [hm.2.2.1]
                  exact (hread o (hsub.subset ho)).mp ho
                · intro q' hq' o ho hr
                  rw [hq] at hq'
                  simp only [Option.some.injEq] at hq'
                  subst hq'
                  obtain ⟨c, hc, hoc⟩ := forall2_left hall ((hread o ho).mpr hr)
                  exact ⟨c, hperm.symm.subset hc, (mkCnd_made hoc).1⟩
                · obtain ⟨c, hc, hs⟩ := hbase
                  exact ⟨c, hperm.symm.subset hc, hs⟩
                · intro c hc
                  exact hmode c (hperm.subset hc)
              split at h
              · rename_i hact
                simp only [Option.some.injEq] at h
                subst h
                exact ⟨good, by simp [hact], (mkCnd_made hsp).2.2.2⟩
              · simp only [Option.some.injEq] at h
                subst h
                exact ⟨good.setMode _, fun _ => rfl, Or.inr (Or.inr rfl)⟩

/-! ### All nodes -/

theorem disablePreserving_result {g : GGraph} {done : Dict Nat NodeCfg} {n : Nat} {cfg cfg' : NodeCfg}
    (h : disablePreserving g done n cfg = some cfg') :
    (cfg' = cfg ∨ cfg' = cfg.setMode .noQuant) ∧
    (cfg.base.act.mode ≠ .preserve → cfg' = cfg) ∧
    (cfg'.base.act.mode = .preserve → ∃ p pc, g.prev n = [p] ∧ done.get p = some pc ∧
      pc.base.act.mode ≠ .noQuant) := by
  have hmode : ∀ (c : NodeCfg) m, c.mode? = some m → c.base.act.mode = m := by
    intro c m hm
    unfold NodeCfg.mode? at hm
    split at hm
    · simp at hm
    · simpa using hm
  unfold disablePreserving at h
  cases hm : cfg.mode? with
  | none => rw [hm] at h; simp at h
  | some m =>
    rw [hm] at h
    have hbm := hmode _ _ hm
    simp only at h
    split at h
    · rename_i hne
      simp only [Option.some.injEq] at h
      subst h
      exact ⟨Or.inl rfl, fun _ => rfl, fun hp => absurd (hbm ▸ hp) hne⟩
    · rename_i hne
      rw [not_not] at hne
      subst hne
      have hdis : ∀ c', some (cfg.setMode .noQuant) = some c' →
          (c' = cfg ∨ c' = cfg.setMode .noQuant) ∧ (cfg.base.act.mode ≠ .preserve → c' = cfg) ∧
          (c'.base.act.mode = .preserve → ∃ p pc, g.prev n = [p] ∧ done.get p = some pc ∧
            pc.base.act.mode ≠ .noQuant) := by
        intro c' he
        simp only [Option.some.injEq] at he
        subst he
        exact ⟨Or.inr rfl, fun hh => absurd hbm hh, fun hh => by simp [NodeCfg.setMode, Cnd.setMode] at hh⟩
      split at h
      · rename_i p hp
        cases hd : done.get p with
        | none => rw [hd] at h; simp at h
        | some pc =>
          rw [hd] at h
          simp only at h
          cases hpm : pc.mode? with
          | none => rw [hpm] at h; simp at h
          | some pm =>
            rw [hpm] at h
            simp only at h
            split at h
            · exact hdis _ h
            · rename_i hnq
              simp only [Option.some.injEq] at h
              subst h
              refine ⟨Or.inl rfl, fun _ => rfl, fun _ => ⟨p, pc, hp, hd, ?_⟩⟩
              rw [hmode _ _ hpm]; exact hnq
      · exact hdis _ h

/-- What the configurations of the nodes handled satisfy. -/
structure Loaded (g : GGraph) (cfgs : Dict Nat NodeCfg) : Prop where
  good : ∀ n c, cfgs.get n = some c → GoodCfg g n c
  modes : ∀ n c, cfgs.get n = some c →
    c.base.act.mode = .quant ∨ c.base.act.mode = .preserve ∨ c.base.act.mode = .noQuant
  source : ∀ n c, cfgs.get n = some c → c.base.act.mode ≠ .noQuant → ∃ s, Source g cfgs n s

theorem source_mono {g : GGraph} {d e : Dict Nat NodeCfg} (h : ∀ n c, d.get n = some c → e.get n = some c)
    {n s : Nat} (hs : Source g d n s) : Source g e n s := by
  induction hs with
  | own hq => obtain ⟨c, h1, h2⟩ := hq; exact Source.own ⟨c, h _ _ h1, h2⟩
  | pass h1 h2 h3 _ ih => exact Source.pass (h _ _ h1) h2 h3 ih

theorem loadNodes_result (g : GGraph) (fuel : Nat) (ns : List Nat) (done cfgs : Dict Nat NodeCfg)
    (hn : (done.keys ++ ns).Nodup) (hd : Loaded g done) (h : loadNodes g fuel ns done = some cfgs) :
    Loaded g cfgs ∧ ∀ n, n ∈ cfgs.keys ↔ n ∈ done.keys ∨ n ∈ ns := by
  induction ns generalizing done with
  | nil => simp only [loadNodes, Option.some.injEq] at h; subst h; exact ⟨hd, by simp⟩
  | cons n ns ih =>
    simp only [loadNodes] at h
    cases hc : nodeCfg g fuel n with
    | none => rw [hc] at h; simp at h
    | some cfg =>
      rw [hc] at h
      simp only at h
      cases hdp : disablePreserving g done n cfg with
      | none => rw [hdp] at h; simp at h
      | some cfg' =>
        rw [hdp] at h
        simp only at h
        obtain ⟨hgood, _, hmodes⟩ := nodeCfg_good hc
        obtain ⟨r1, r2, r3⟩ := disablePreserving_result hdp
        have hnk : n ∉ done.keys := by
          intro hh
          rw [List.nodup_append] at hn
          exact hn.2.2 n hh n (by simp) rfl
        have hnone : done.get n = none := (Dict.get_none_iff _ _).mpr hnk
        have hext : ∀ m c, done.get m = some c → (done.set n cfg').get m = some c := by
          intro m c hm
          rw [Dict.get_set, if_neg]
          · exact hm
          · intro hh; subst hh; rw [hnone] at hm; simp at hm
        have hset : ∀ m c, (done.set n cfg').get m = some c → (m = n ∧ c = cfg') ∨ done.get m = some c := by
          intro m c hm
          rw [Dict.get_set] at hm
          split at hm
          · rename_i hh
            simp only [Option.some.injEq] at hm
            exact Or.inl ⟨hh, hm.symm⟩
          · exact Or.inr hm
        have hself : (done.set n cfg').get n = some cfg' := by rw [Dict.get_set, if_pos rfl]
        have hl : Loaded g (done.set n cfg') := by
          refine ⟨?_, ?_, ?_⟩
          · intro m c hm
            rcases hset m c hm with ⟨e1, e2⟩ | hm
            · subst e1; subst e2
              rcases r1 with r | r
              · rw [r]; exact hgood
              · rw [r]; exact hgood.setMode _
            · exact hd.good m c hm
          · intro m c hm
            rcases hset m c hm with ⟨e1, e2⟩ | hm
            · subst e1; subst e2
              rcases r1 with r | r
              · rw [r]; exact hmodes
              · rw [r]; exact Or.inr (Or.inr rfl)
            · exact hd.modes m c hm
          · intro m c hm hne
            rcases hset m c hm with ⟨e1, e2⟩ | hm
            · subst e1; subst e2
              have hcm : c.base.act.mode = .quant ∨ c.base.act.mode = .preserve := by
                rcases r1 with r | r
                · rw [r] at hne ⊢
                  rcases hmodes with h | h | h
                  · exact Or.inl h
                  · exact Or.inr h
                  · exact absurd h hne
                · rw [r] at hne; exact absurd rfl hne
              rcases hcm with hq | hp
              · exact ⟨m, Source.own ⟨c, hself, hq⟩⟩
              · obtain ⟨p, pc, h1, h2, h3⟩ := r3 hp
                obtain ⟨s, hs⟩ := hd.source p pc h2 h3
                exact ⟨s, Source.pass hself hp h1 (source_mono hext hs)⟩
            · obtain ⟨s, hs⟩ := hd.source m c hm hne
              exact ⟨s, source_mono hext hs⟩
        have hkeys : (done.set n cfg').keys = done.keys ++ [n] := by
          rw [Dict.keys_set, if_neg]
          exact hnk
        obtain ⟨i1, i2⟩ := ih (done.set n cfg') (by rw [hkeys]; simpa using hn) hl h
        refine ⟨i1, ?_⟩
        intro m
        rw [i2, hkeys]
        simp only [List.mem_append, List.mem_cons, List.not_mem_nil, or_false]
        rw [or_assoc]

theorem loaded_nil (g : GGraph) : Loaded g [] :=
  ⟨fun n c h => by rw [Dict.get_nil] at h; simp at h, fun n c h => by rw [Dict.get_nil] at h; simp at h,
    fun n c h => by rw [Dict.get_nil] at h; simp at h⟩

/-- C50.  In a graph loaded with a TPC, the candidates of a layer are made from its options, exactly from
those whose activation bits all consumers read; they contain the base configuration, share its mode, and are
ordered from the largest to the smallest. -/
theorem C50_loaded (g : GGraph) (fuel : Nat) (cfgs : Dict Nat NodeCfg) (hn : g.order.Nodup)
    (h : loadNodes g fuel g.order [] = some cfgs) :
    (∀ n, n ∈ cfgs.keys ↔ n ∈ g.order) ∧ ∀ n cfg, cfgs.get n = some cfg → GoodCfg g n cfg := by
  obtain ⟨h1, h2⟩ := loadNodes_result g fuel g.order [] cfgs (by simpa [Dict.keys] using hn)
    (loaded_nil g) h
  exact ⟨fun n => by rw [h2]; simp [Dict.keys], h1.good⟩

/-- C84.  In a graph loaded with a TPC, each layer whose output is not left unquantized takes its
quantization from one layer that quantizes its own output: itself, or the one found through preserving layers
with a single input. -/
theorem C84_source (g : GGraph) (fuel : Nat) (cfgs : Dict Nat NodeCfg) (hn : g.order.Nodup)
    (h : loadNodes g fuel g.order [] = some cfgs) (n : Nat) (cfg : NodeCfg) (hc : cfgs.get n = some cfg)
    (hq : cfg.base.act.mode ≠ .noQuant) :
    (∃ s, Source g cfgs n s) ∧ ∀ s s', Source g cfgs n s → Source g cfgs n s' → s = s' := by
  obtain ⟨h1, _⟩ := loadNodes_result g fuel g.order [] cfgs (by simpa [Dict.keys] using hn) (loaded_nil g) h
  refine ⟨h1.source n cfg hc hq, ?_⟩
  intro s s' hs
  clear hc hq
  induction hs with
  | own hqi =>
    intro hs'
    cases hs' with
    | own _ => rfl
    | pass e1 e2 e3 e4 =>
      obtain ⟨c, f1, f2⟩ := hqi
      rw [f1] at e1
      simp only [Option.some.injEq] at e1
      subst e1
      rw [f2] at e2
      simp at e2
  | pass e1 e2 e3 e4 ih =>
    intro hs'
    cases hs' with
    | own hqi =>
      obtain ⟨c, f1, f2⟩ := hqi
      rw [f1] at e1
      simp only [Option.some.injEq] at e1
      subst e1
      rw [f2] at e2
      simp at e2
    | pass f1 f2 f3 f4 =>
      rw [e3] at f3
      simp only [List.cons.injEq, and_true] at f3
      subst f3
      exact ih f4

/-! ### Concrete graphs -/

def sampleAttr : AttrCfg := ⟨.pot, 8, true, true, none⟩
def sampleOp (bits : Nat) (ins : List Nat) (enable preserving : Bool) : OpCfg Name where
  defaultAttr := ⟨.pot, 32, false, false, none⟩
  attrs := [(['k'], sampleAttr)]
  actMethod := .pot
  actBits := bits
  inBits := ins
  enableAct := enable
  preserving := preserving
  signedness := .auto
  fixedScale := none
  fixedZero := none
  simd := some 32

/-- A convolution with 16, 8 and 4 bits, a preserving layer, and a layer that reads at most 8 bits. -/
def chainGraph : GGraph where
  order := [0, 1, 2]
  next := fun n => if n = 0 then [1] else if n = 1 then [2] else []
  prev := fun n => if n = 2 then [1] else if n = 1 then [0] else []
  info := fun n =>
    if n = 0 then ⟨some ⟨[sampleOp 4 [8, 16] true false, sampleOp 16 [8, 16] true false,
      sampleOp 8 [8, 16] true false], sampleOp 16 [8, 16] true false⟩, [.named ['k']], some ['k'], true⟩
    else if n = 1 then ⟨some ⟨[sampleOp 8 [16] false true], sampleOp 8 [16] false true⟩, [], none, true⟩
    else ⟨some ⟨[sampleOp 8 [8] true false], sampleOp 8 [8] true false⟩, [], none, true⟩

example : ∃ cfgs, loadNodes chainGraph 10 chainGraph.order [] = some cfgs ∧
    (cfgs.get 0).map (fun c => (c.base.act.nBits, c.cands.map (fun d => d.act.nBits))) = some (8, [8, 4]) ∧
    (cfgs.get 1).map (fun c => c.base.act.mode) = some .preserve := by
  refine ⟨_, rfl, ?_, ?_⟩ <;> decide +kernel

example : Acyclic chainGraph := by
  refine ⟨fun n => if n = 0 then 0 else if n = 1 then 1 else 2, 2, ?_, ?_⟩
  · intro n; simp only; split <;> [skip; split] <;> omega
  · intro n m hm
    simp only [chainGraph] at hm
    split at hm
    · simp only [List.mem_singleton] at hm; subst hm; rename_i h; subst h; decide
    · split at hm
      · simp only [List.mem_singleton] at hm; subst hm; rename_i h; subst h; decide
      · simp at hm

/-- The layer that reads has two configurations, with 8 and 4 bits at its input; its base reads 8. -/
def mixedGraph : GGraph where
  order := [0, 1]
  next := fun n => if n = 0 then [1] else []
  prev := fun n => if n = 1 then [0] else []
  info := fun n =>
    if n = 0 then ⟨some ⟨[sampleOp 8 [8] true false, sampleOp 4 [8] true false], sampleOp 8 [8] true false⟩,
      [], none, true⟩
    else ⟨some ⟨[sampleOp 8 [8] true false, sampleOp 8 [4] true false], sampleOp 8 [8] true false⟩, [], none, true⟩

/-- C50 is false of the code: the base configuration can be outside of the options kept, and then the
node is refused although one of its options is read by all consumers. -/
theorem C50_base_violated :
    ∃ q b os, (mixedGraph.info 0).options = some q ∧ q.base ∈ q.configs ∧
      filterQco mixedGraph 10 0 q = some (b, os) ∧ b ∉ os ∧ os ≠ [] ∧ nodeCfg mixedGraph 10 0 = none := by
  refine ⟨_, _, _, rfl, by decide +kernel, rfl, by decide +kernel, by decide +kernel, by decide +kernel⟩

end MCT.Cand
