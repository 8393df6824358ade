import Verif.Pruning.Weights

/-! Lemmas about slicing weights. -/

namespace MCT.Pruning

theorem kept_lt {mask : List Bool} {c : ℕ} (h : c ∈ kept mask) : c < mask.length := by
  simp only [kept, List.mem_filter, List.mem_range] at h; exact h.1

theorem compress_getElem? {α : Type} (mask : List Bool) (v : List α) (h : v.length = mask.length) (j : ℕ) :
    (compress mask v)[j]? = (kept mask)[j]?.bind fun c => v[c]? := by
  unfold compress
  have : ∀ l : List ℕ, (∀ c ∈ l, c < v.length) → ∀ j : ℕ,
      (l.filterMap fun c => v[c]?)[j]? = l[j]?.bind fun c => v[c]? := by
    intro l
    induction l with
    | nil => intro _ j; simp
    | cons c l ih =>
      intro hl j
      have hc := hl c (by simp)
      rw [List.filterMap_cons_some (List.getElem?_eq_getElem hc)]
      cases j with
      | zero => simp [List.getElem?_eq_getElem hc]
      | succ j => simpa using ih (fun k hk => hl k (by simp [hk])) j
  exact this _ (fun c hc => h ▸ kept_lt hc) j

theorem compress_length {α : Type} (mask : List Bool) (v : List α) (h : v.length = mask.length) :
    (compress mask v).length = (kept mask).length := by
  unfold compress
  have : ∀ l : List ℕ, (∀ c ∈ l, c < v.length) → (l.filterMap fun c => v[c]?).length = l.length := by
    intro l
    induction l with
    | nil => intro _; simp
    | cons c l ih =>
      intro hl
      have hc := hl c (by simp)
      rw [List.filterMap_cons_some (List.getElem?_eq_getElem hc)]
      simpa using ih (fun k hk => hl k (by simp [hk]))
  exact this _ (fun c hc => h ▸ kept_lt hc)

theorem compress_zipWith {α β γ : Type} (f : α → β → γ) (mask : List Bool) (a : List α) (b : List β)
    (ha : a.length = mask.length) (hb : b.length = mask.length) :
    List.zipWith f (compress mask a) (compress mask b) = compress mask (List.zipWith f a b) := by
  apply List.ext_getElem?
  intro j
  rw [compress_getElem? _ _ (by simp [ha, hb]), List.getElem?_zipWith, compress_getElem? _ _ ha,
    compress_getElem? _ _ hb]
  cases hk : (kept mask)[j]? with
  | none => simp
  | some c => simp [List.getElem?_zipWith]

theorem kept_cons (b : Bool) (m : List Bool) :
    kept (b :: m) = (if b then [0] else []) ++ (kept m).map Nat.succ := by
  unfold kept
  rw [List.length_cons, List.range_succ_eq_map, List.filter_cons, List.filter_map]
  cases b <;> simp [Function.comp_def]

theorem compress_cons {α : Type} (b : Bool) (m : List Bool) (a : α) (v : List α) :
    compress (b :: m) (a :: v) = (if b then [a] else []) ++ compress m v := by
  unfold compress
  rw [kept_cons, List.filterMap_append, List.filterMap_map]
  cases b <;> simp [Function.comp_def]

theorem sum_compress {W : Type} [AddCommMonoid W] : ∀ (m : List Bool) (v : List W), v.length = m.length →
    (compress m v).sum = (List.zipWith (fun b w => if b then w else 0) m v).sum
  | [], v, h => by
    have : v = [] := List.eq_nil_of_length_eq_zero (by simpa using h)
    subst this; simp [compress]
  | b :: m, [], h => by simp at h
  | b :: m, a :: v, h => by
    rw [compress_cons, List.sum_append, sum_compress m v (by simpa using h)]
    cases b <;> simp

theorem ChannelLayer.eval_length {α V : Type} (l : ChannelLayer α V) (x : List V) :
    (l.eval x).length = x.length := by simp [ChannelLayer.eval]

theorem ChannelLayer.eval_compress {α V : Type} (l : ChannelLayer α V) (mask : List Bool) (x : List V)
    (hx : x.length = mask.length) (hw : ∀ kv ∈ l.weights, kv.2.length = mask.length) :
    ({ l with weights := kerasPruneIntermediate l.weights mask } : ChannelLayer α V).eval (compress mask x)
      = compress mask (l.eval x) := by
  apply List.ext_getElem?
  intro j
  rw [compress_getElem? _ _ (by simp [ChannelLayer.eval, hx])]
  unfold ChannelLayer.eval
  rw [List.getElem?_mapIdx, compress_getElem? _ _ hx]
  cases hk : (kept mask)[j]? with
  | none => simp
  | some c =>
    simp only [Option.bind_some, List.getElem?_mapIdx]
    congr 1
    funext v
    congr 1
    unfold kerasPruneIntermediate
    rw [List.map_map]
    apply List.map_congr_left
    intro kv hkv
    simp only [Function.comp]
    rw [compress_getElem? _ _ (hw kv hkv), hk]; rfl

theorem inters_compress {α V : Type} (mask : List Bool) : ∀ (ls : List (ChannelLayer α V)) (x : List V),
    x.length = mask.length → (∀ l ∈ ls, ∀ kv ∈ l.weights, kv.2.length = mask.length) →
    (ls.map fun l => ({ l with weights := kerasPruneIntermediate l.weights mask } : ChannelLayer α V)).foldl
        (fun z l => l.eval z) (compress mask x)
      = compress mask (ls.foldl (fun z l => l.eval z) x)
  | [], x, _, _ => rfl
  | l :: ls, x, hx, hw => by
    rw [List.map_cons, List.foldl_cons, List.foldl_cons,
      ChannelLayer.eval_compress l mask x hx (hw l (by simp))]
    exact inters_compress mask ls _ (by rw [l.eval_length, hx]) (fun k hk => hw k (by simp [hk]))

theorem inters_length {α V : Type} : ∀ (ls : List (ChannelLayer α V)) (x : List V),
    (ls.foldl (fun z l => l.eval z) x).length = x.length
  | [], _ => rfl
  | l :: ls, x => by rw [List.foldl_cons, inters_length ls, l.eval_length]

theorem hidden_prune {κ α V : Type} [AddCommMonoid V] (act : κ → V → V) (s : SectionLayers κ α V)
    (mask : List Bool) (x : List V) (hk : s.entry.kernel.length = mask.length)
    (hb : s.entry.bias.length = mask.length)
    (hw : ∀ l ∈ s.inters, ∀ kv ∈ l.weights, kv.2.length = mask.length) :
    (s.prune mask).hidden act x = compress mask (s.hidden act x) := by
  unfold SectionLayers.hidden SectionLayers.prune
  simp only
  have : (s.entry.pruneEntry mask).eval act x = compress mask (s.entry.eval act x) := by
    unfold Linear.pruneEntry Linear.eval
    exact compress_zipWith _ mask _ _ hk hb
  rw [this]
  exact inters_compress mask _ _ (by simp [Linear.eval, hk, hb]) hw

end MCT.Pruning
