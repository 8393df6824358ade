import Verif.XQuant.Lemmas

namespace MCT.XQuant
open MCT
section
variable {X T K : Type} [Field K]

theorem similarity_spec (metrics : Dict (Metric T K)) (a b : T) (res : Dict K)
    (h : similarity metrics a b = some res) : Rel (fun _ (m : Metric T K) v => m a b = some v) metrics res :=
  (mapM_rel (fun _ (m : Metric T K) => m a b) metrics res).1 h

theorem appendAll_spec (d d' : Dict (List K)) (res : Dict K) (h : appendAll d res = some d') :
    Rel (fun k l l' => ∃ v, res.lookup k = some v ∧ l' = l ++ [v]) d d' := by
  have h' := (mapM_rel (fun k (l : List K) => (res.lookup k).map (fun v => l ++ [v])) d d').1 (by
    rw [← h]; unfold appendAll; congr; funext p; rw [Option.map_map]; rfl)
  unfold Rel at h' ⊢
  refine h'.imp ?_
  rintro p p' ⟨h1, h2⟩
  rw [Option.map_eq_some_iff] at h2
  obtain ⟨v, h3, h4⟩ := h2
  exact ⟨h1, v, h3, h4.symm⟩

theorem appendAll_isSome (d : Dict (List K)) (res : Dict K) (h : d.map Prod.fst = res.map Prod.fst) :
    ∃ d', appendAll d res = some d' := by
  obtain ⟨d', h'⟩ := mapM_isSome (fun k (l : List K) => (res.lookup k).map (fun v => l ++ [v])) d (by
    intro p hp
    obtain ⟨v, hv⟩ := (lookup_isSome res p.1).2 (h ▸ List.mem_map.2 ⟨p, hp, rfl⟩)
    exact ⟨p.2 ++ [v], by simp [hv]⟩)
  refine ⟨d', ?_⟩
  rw [← h']; unfold appendAll; congr; funext p; rw [Option.map_map]; rfl

theorem averages_spec (d : Dict (List K)) (d' : Dict K) (h : averages d = some d') :
    Rel (fun _ l v => average l = some v) d d' :=
  (mapM_rel (fun _ (l : List K) => average l) d d').1 h

/-! ### One input -/

theorem stepLayer_spec (metrics : Dict (Metric T K)) (fa qa : Dict T) (inter inter' : Dict (Dict (List K)))
    (pair : String × String) (h : stepLayer metrics fa qa inter pair = some inter') :
    ∃ a b res d d', fa.lookup pair.1 = some a ∧ qa.lookup pair.2 = some b ∧
      similarity metrics a b = some res ∧ inter.lookup pair.2 = some d ∧ appendAll d res = some d' ∧
      inter' = Dict.set inter pair.2 d' := by
  unfold stepLayer at h
  simp only [Option.bind_eq_some_iff, Option.map_eq_some_iff] at h
  obtain ⟨a, h1, b, h2, res, h3, d, h4, d', h5, h6⟩ := h
  exact ⟨a, b, res, d, d', h1, h2, h3, h4, h5, h6.symm⟩

theorem foldLayers_spec (metrics : Dict (Metric T K)) (fa qa : Dict T) (pairs : Dict String)
    (hn : (pairs.map Prod.snd).Nodup) (inter inter' : Dict (Dict (List K)))
    (h : pairs.foldlM (stepLayer metrics fa qa) inter = some inter') :
    inter'.map Prod.fst = inter.map Prod.fst ∧
    (∀ l, l ∉ pairs.map Prod.snd → inter'.lookup l = inter.lookup l) ∧
    ∀ pair ∈ pairs, ∃ a b res d d', fa.lookup pair.1 = some a ∧ qa.lookup pair.2 = some b ∧
      similarity metrics a b = some res ∧ inter.lookup pair.2 = some d ∧ appendAll d res = some d' ∧
      inter'.lookup pair.2 = some d' := by
  induction pairs generalizing inter with
  | nil =>
    simp at h
    subst h
    simp
  | cons p pairs ih =>
    rw [List.foldlM_cons] at h
    cases hs : stepLayer metrics fa qa inter p with
    | none => rw [hs] at h; simp at h
    | some i1 =>
      rw [hs] at h
      simp only [Option.bind_eq_bind, Option.bind_some] at h
      simp only [List.map_cons, List.nodup_cons] at hn
      obtain ⟨a, b, res, d, d', h1, h2, h3, h4, h5, rfl⟩ := stepLayer_spec _ _ _ _ _ _ hs
      obtain ⟨k1, k2, k3⟩ := ih hn.2 _ h
      refine ⟨?_, ?_, ?_⟩
      · rw [k1, keys_set, if_pos ((lookup_isSome inter p.2).1 ⟨d, h4⟩)]
      · intro l hl
        simp only [List.map_cons, List.mem_cons, not_or] at hl
        rw [k2 l hl.2, lookup_set, if_neg hl.1]
      · intro pair hpair
        rcases List.mem_cons.1 hpair with rfl | hpair
        · exact ⟨a, b, res, d, d', h1, h2, h3, h4, h5, by rw [k2 _ hn.1, lookup_set, if_pos rfl]⟩
        · obtain ⟨a, b, res, d, d', g1, g2, g3, g4, g5, g6⟩ := k3 pair hpair
          have hne : pair.2 ≠ p.2 := fun e => hn.1 (e ▸ List.mem_map.2 ⟨pair, hpair, rfl⟩)
          rw [lookup_set, if_neg hne] at g4
          exact ⟨a, b, res, d, d', g1, g2, g3, g4, g5, g6⟩

/-! ### The invariant of the loop over the dataset -/

/-- What is gathered after the inputs `done`. -/
structure Inv (metrics : Dict (Metric T K)) (pairs : Dict String) (f q : Net X T) (done : List X)
    (g : Gathered K) : Prop where
  outKeys : g.outs.map Prod.fst = metrics.map Prod.fst
  outVals : ∀ k (m : Metric T K), metrics.lookup k = some m → ∃ vals, g.outs.lookup k = some vals ∧
    List.Forall₂ (fun x v => m (f.out x) (q.out x) = some v) done vals
  interKeys : g.inter.map Prod.fst = pairs.map Prod.snd
  layerKeys : ∀ p ∈ pairs, ∃ d, g.inter.lookup p.2 = some d ∧ d.map Prod.fst = metrics.map Prod.fst
  layerVals : ∀ p ∈ pairs, ∀ d, g.inter.lookup p.2 = some d → ∀ k (m : Metric T K),
    metrics.lookup k = some m → ∃ vals, d.lookup k = some vals ∧
      List.Forall₂ (fun x v => ∃ a b, LastCall f x p.1 a ∧ LastCall q x p.2 b ∧ m a b = some v) done vals

theorem lookup_map_const {β γ : Type} (d : Dict β) (c : γ) (k : String) :
    List.lookup k (d.map (fun m => (m.1, c))) = (d.lookup k).map (fun _ => c) := by
  induction d with
  | nil => rfl
  | cons p d ih =>
    obtain ⟨a, b⟩ := p
    simp only [List.map_cons, List.lookup_cons]
    cases h : (k == a) <;> simp [ih]

theorem foldl_set_const {γ : Type} (c : γ) (ls : List String) (hn : ls.Nodup) (d : Dict γ)
    (hd : ∀ l ∈ ls, l ∉ d.map Prod.fst) :
    ls.foldl (fun d l => Dict.set d l c) d = d ++ ls.map (fun l => (l, c)) := by
  induction ls generalizing d with
  | nil => simp
  | cons l ls ih =>
    simp only [List.nodup_cons] at hn
    rw [List.foldl_cons, set_new d l c (hd l (by simp)), ih hn.2]
    · simp
    · intro l' hl' hc
      simp only [List.map_append, List.map_cons, List.map_nil, List.mem_append, List.mem_singleton] at hc
      rcases hc with hc | hc
      · exact hd l' (List.mem_cons_of_mem _ hl') hc
      · exact hn.1 (hc ▸ hl')

theorem start_inter (metrics : Dict (Metric T K)) (pairs : Dict String) (hn : (pairs.map Prod.snd).Nodup) :
    (start metrics pairs).inter =
      (pairs.map Prod.snd).map (fun l => (l, metrics.map (fun m => (m.1, ([] : List K))))) := by
  unfold start
  simp only
  rw [foldl_set_const _ _ hn [] (by simp)]
  rfl

theorem start_inv (metrics : Dict (Metric T K)) (pairs : Dict String) (f q : Net X T)
    (hn : (pairs.map Prod.snd).Nodup) : Inv metrics pairs f q [] (start metrics pairs) := by
  have hi := start_inter metrics pairs hn
  have hk : (start metrics pairs).inter.map Prod.fst = pairs.map Prod.snd := by
    rw [hi, List.map_map]
    exact List.map_id' _
  have hl : ∀ p ∈ pairs, (start metrics pairs).inter.lookup p.2 =
      some (metrics.map (fun m => (m.1, ([] : List K)))) := by
    intro p hp
    apply lookup_mem
    · rw [hk]; exact hn
    · rw [hi]
      exact List.mem_map.2 ⟨p.2, List.mem_map.2 ⟨p, hp, rfl⟩, rfl⟩
  refine ⟨?_, ?_, hk, ?_, ?_⟩
  · simp [start, List.map_map, Function.comp_def]
  · intro k m hm
    refine ⟨[], ?_, List.Forall₂.nil⟩
    simp only [start]
    rw [lookup_map_const, hm]; rfl
  · intro p hp
    exact ⟨_, hl p hp, by simp [List.map_map, Function.comp_def]⟩
  · intro p hp d hd k m hm
    rw [hl p hp] at hd
    cases hd
    refine ⟨[], ?_, List.Forall₂.nil⟩
    rw [lookup_map_const, hm]; rfl

theorem forall₂_snoc {α β : Type} {R : α → β → Prop} {l : List α} {r : List β} {a : α} {b : β}
    (h : List.Forall₂ R l r) (hab : R a b) : List.Forall₂ R (l ++ [a]) (r ++ [b]) := by
  induction h with
  | nil => exact .cons hab .nil
  | cons h _ ih => exact .cons h ih

theorem stepInput_inv (fw : Fw) (ls : T → T) (metrics : Dict (Metric T K)) (pairs : Dict String)
    (f q : Net X T) (hn : (pairs.map Prod.snd).Nodup)
    (hkey : outputKey ∉ pairs.map Prod.fst ∧ outputKey ∉ pairs.map Prod.snd)
    (hne : fw = .keras → pairs ≠ []) (done : List X) (x : X) (g g' : Gathered K)
    (hg : Inv metrics pairs f q done g)
    (h : stepInput fw ls metrics pairs f q g x = some g') : Inv metrics pairs f q (done ++ [x]) g' := by
  unfold stepInput at h
  simp only [Option.bind_eq_some_iff, Option.map_eq_some_iff] at h
  obtain ⟨fa, h1, qa, h2, fp, h3, qp, h4, res, h5, outs, h6, inter, h7, rfl⟩ := h
  obtain ⟨f1, f2⟩ := extract_spec fw ls f _ x fa h1 (fun e he => hne e (List.map_eq_nil_iff.1 he))
  obtain ⟨q1, q2⟩ := extract_spec fw ls q _ x qa h2 (fun e he => hne e (List.map_eq_nil_iff.1 he))
  rw [h3] at f1; cases f1
  rw [h4] at q1; cases q1
  have hs := similarity_spec metrics _ _ res h5
  have ha := appendAll_spec g.outs outs res h6
  obtain ⟨k1, k2, k3⟩ := foldLayers_spec metrics fa qa pairs hn g.inter inter h7
  refine ⟨?_, ?_, ?_, ?_, ?_⟩
  · exact ha.keys.trans hg.outKeys
  · intro k m hm
    obtain ⟨vals, g1, g2⟩ := hg.outVals k m hm
    obtain ⟨l', g3, v, g4, rfl⟩ := ha.lookup g1
    obtain ⟨v', g5, g6⟩ := hs.lookup hm
    rw [g4] at g5; cases g5
    exact ⟨_, g3, forall₂_snoc g2 g6⟩
  · exact k1.trans hg.interKeys
  · intro p hp
    obtain ⟨a, b, res', d, d', e1, e2, e3, e4, e5, e6⟩ := k3 p hp
    obtain ⟨d0, e7, e8⟩ := hg.layerKeys p hp
    rw [e4] at e7; cases e7
    exact ⟨d', e6, (appendAll_spec _ _ _ e5).keys.trans e8⟩
  · intro p hp d1 hd1 k m hm
    obtain ⟨a, b, res', d, d', e1, e2, e3, e4, e5, e6⟩ := k3 p hp
    rw [e6] at hd1; cases hd1
    obtain ⟨vals, g1, g2⟩ := hg.layerVals p hp d e4 k m hm
    obtain ⟨l', g3, v, g4, rfl⟩ := (appendAll_spec _ _ _ e5).lookup g1
    obtain ⟨v', g5, g6⟩ := (similarity_spec metrics _ _ _ e3).lookup hm
    rw [g4] at g5; cases g5
    refine ⟨_, g3, forall₂_snoc g2 ⟨a, b, ?_, ?_, g6⟩⟩
    · have hm1 : p.1 ∈ pairs.map Prod.fst := List.mem_map.2 ⟨p, hp, rfl⟩
      exact f2 p.1 hm1 (fun e => hkey.1 (e ▸ hm1)) a e1
    · have hm2 : p.2 ∈ pairs.map Prod.snd := List.mem_map.2 ⟨p, hp, rfl⟩
      exact q2 p.2 hm2 (fun e => hkey.2 (e ▸ hm2)) b e2

theorem fold_inv (fw : Fw) (ls : T → T) (metrics : Dict (Metric T K)) (pairs : Dict String)
    (f q : Net X T) (hn : (pairs.map Prod.snd).Nodup)
    (hkey : outputKey ∉ pairs.map Prod.fst ∧ outputKey ∉ pairs.map Prod.snd)
    (hne : fw = .keras → pairs ≠ []) (todo done : List X) (g g' : Gathered K)
    (hg : Inv metrics pairs f q done g)
    (h : todo.foldlM (stepInput fw ls metrics pairs f q) g = some g') :
    Inv metrics pairs f q (done ++ todo) g' := by
  induction todo generalizing done g with
  | nil => simp at h; subst h; simpa using hg
  | cons x todo ih =>
    rw [List.foldlM_cons] at h
    cases hs : stepInput fw ls metrics pairs f q g x with
    | none => rw [hs] at h; simp at h
    | some g1 =>
      rw [hs] at h
      simp only [Option.bind_eq_bind, Option.bind_some] at h
      have := ih (done ++ [x]) g1 (stepInput_inv fw ls metrics pairs f q hn hkey hne done x g g1 hg hs) h
      simpa using this

theorem average_isMean (dataset : List X) (value : X → K → Prop) (vals : List K) (v : K)
    (h : List.Forall₂ value dataset vals) (ha : average vals = some v) : IsMean dataset value v := by
  unfold average at ha
  split at ha
  · simp at ha
  · next hne =>
    have hl := h.length_eq
    refine ⟨?_, vals, h, ?_⟩
    · rintro rfl
      simp at hl
      exact hne (List.length_eq_zero_iff.1 hl.symm)
    · rw [hl]; exact (Option.some.inj ha).symm

end
end MCT.XQuant
