import Verif.Reshape.Lemmas
import Mathlib.Algebra.Order.BigOperators.Group.List
import Mathlib.Algebra.BigOperators.Ring.List
import Mathlib.Tactic.Ring
import Mathlib.Data.List.Pairwise

/-!
# C138: Reshapes with computed sizes become static reshapes with the same result

Every `reshape` and `view` of a PyTorch model gets the sizes it had when the model was traced, with the first size
left open, and the nodes that computed the sizes leave the graph.
-/

namespace MCT.Reshape

/-! ## Shapes -/

theorem resolve_static (n : Nat) (t : List Nat) :
    resolve n (-1 :: t.map Int.ofNat) = if 0 < t.prod ∧ n % t.prod = 0 then some (n / t.prod :: t) else none := by
  have hne : ∀ a : Nat, (Int.ofNat a) ≠ -1 := by intro a; simp only [Int.ofNat_eq_natCast]; omega
  have hany : (-1 :: t.map Int.ofNat).any (· < -1) = false := by
    simp only [List.any_cons, List.any_map]
    simp
  have hnot : (-1 : Int) ∉ t.map Int.ofNat := by
    intro h
    obtain ⟨a, _, ha⟩ := List.mem_map.mp h
    exact hne a ha
  have hcnt : (-1 :: t.map Int.ofNat).count (-1) = 1 := by
    rw [List.count_cons_self, List.count_eq_zero_of_not_mem hnot]
  have hfil : ((-1 :: t.map Int.ofNat).filter (· ≠ -1)).map Int.toNat = t := by
    rw [List.filter_cons_of_neg (by simp)]
    rw [List.filter_eq_self.mpr]
    · rw [List.map_map]; conv_rhs => rw [← List.map_id t]
      apply List.map_congr_left; intro a _; rfl
    · intro a ha
      have : a ≠ -1 := fun h => hnot (h ▸ ha)
      simpa using this
  unfold resolve
  rw [hany, hcnt]
  simp only [Bool.false_eq_true, if_false, lt_irrefl]
  rw [hfil]
  simp only [List.mem_cons, true_or, if_true]
  congr 2
  rw [List.map_cons, List.map_map]
  simp only [if_true, List.cons.injEq, true_and]
  conv_rhs => rw [← List.map_id t]
  apply List.map_congr_left
  intro a _
  simp only [Function.comp, if_neg (hne a)]
  rfl

theorem resolve_prod {n : Nat} {dims : List Int} {o : List Nat} (h : resolve n dims = some o) : o.prod = n := by
  unfold resolve at h
  split at h
  · cases h
  split at h
  · cases h
  rename_i hcnt
  dsimp only at h
  split at h
  · rename_i hmem
    split at h
    · rename_i hp
      cases h
      obtain ⟨a, b, rfl⟩ := List.append_of_mem hmem
      rw [List.count_append, List.count_cons_self] at hcnt
      have ha : (-1 : Int) ∉ a := fun hx => by have := List.count_pos_iff.mpr hx; omega
      have hb : (-1 : Int) ∉ b := fun hx => by have := List.count_pos_iff.mpr hx; omega
      have key : ∀ (l : List Int) (k : Nat), (-1 : Int) ∉ l →
          (l.map fun d => if d = -1 then k else d.toNat) = l.map Int.toNat ∧ l.filter (· ≠ -1) = l := by
        intro l k hl
        constructor
        · apply List.map_congr_left
          intro d hd
          rw [if_neg]; rintro rfl; exact hl hd
        · rw [List.filter_eq_self]
          intro d hd
          have : d ≠ -1 := fun hx => hl (hx ▸ hd)
          simpa using this
      have hfil : ((a ++ -1 :: b).filter (· ≠ -1)) = a ++ b := by
        rw [List.filter_append, (key a 0 ha).2, List.filter_cons_of_neg (by simp), (key b 0 hb).2]
      rw [hfil] at hp ⊢
      rw [List.map_append, List.map_cons, (key a _ ha).1, (key b _ hb).1, List.prod_append, List.prod_cons]
      rw [List.map_append, List.prod_append] at hp ⊢
      simp only [if_true]
      have := Nat.div_add_mod n ((a.map Int.toNat).prod * (b.map Int.toNat).prod)
      rw [hp.2, Nat.add_zero] at this
      calc _ = (a.map Int.toNat).prod * (b.map Int.toNat).prod *
              (n / ((a.map Int.toNat).prod * (b.map Int.toNat).prod)) := by ring
        _ = n := this
    · cases h
  · rename_i hmem
    split at h
    · rename_i hp
      cases h
      rw [← hp]
      congr 2
      symm
      rw [List.filter_eq_self]
      intro d hd
      have : d ≠ -1 := fun hx => hmem (hx ▸ hd)
      simpa using this
    · cases h

/-- **C138 (when a static reshape is right).**  For every way `f` to compute the sizes, for a model traced with a
tensor of one shape and run with a tensor of another: the static reshape gives the shape the model's reshape gives
if, and only if, all sizes but the first are those of the traced output. -/
theorem C138_same_iff {f : List Nat → List Int} {traced s : List Nat} {h0 : Nat} {t o : List Nat}
    (htr : original f traced = some (h0 :: t)) (ho : original f s = some o) (hs : 0 < s.prod) :
    static f traced s = some o ↔ ∃ h, o = h :: t := by
  unfold static
  rw [htr]
  simp only [Option.bind_some, staticDims]
  rw [resolve_static]
  have hprod := resolve_prod ho
  constructor
  · intro h
    split at h
    · cases h; exact ⟨_, rfl⟩
    · cases h
  · rintro ⟨h, rfl⟩
    rw [List.prod_cons] at hprod
    have ht : 0 < t.prod := by
      rcases Nat.eq_zero_or_pos t.prod with h1 | h1
      · rw [h1] at hprod; omega
      · exact h1
    rw [if_pos ⟨ht, by rw [← hprod]; simp⟩, ← hprod, Nat.mul_div_cancel _ ht]

/-- **C138 (the traced shape).**  With the shape the model was traced with nothing changes. -/
theorem C138_traced {f : List Nat → List Int} {traced o : List Nat} (htr : original f traced = some o) (hne : o ≠ [])
    (hpos : 0 < traced.prod) : static f traced traced = original f traced := by
  rw [htr]
  cases o with
  | nil => exact absurd rfl hne
  | cons h t => exact (C138_same_iff htr htr hpos).mpr ⟨h, rfl⟩

/-- **C138 (constant sizes).**  When all sizes but the first are constants, nothing changes for any shape the
model's reshape accepts. -/
theorem C138_constant_rest {g : List Nat → Int} {c : List Nat} {traced s o o0 : List Nat}
    (htr : original (fun s => g s :: c.map Int.ofNat) traced = some o0)
    (ho : original (fun s => g s :: c.map Int.ofNat) s = some o) (hs : 0 < s.prod) :
    static (fun s => g s :: c.map Int.ofNat) traced s = some o := by
  have tail : ∀ {n : Nat} {d : Int} {o : List Nat}, resolve n (d :: c.map Int.ofNat) = some o → ∃ h, o = h :: c := by
    intro n d o h
    by_cases hd : d = -1
    · subst hd
      rw [resolve_static] at h
      split at h
      · cases h; exact ⟨_, rfl⟩
      · cases h
    · have hnot : (-1 : Int) ∉ d :: c.map Int.ofNat := by
        rw [List.mem_cons]
        rintro (h1 | h1)
        · exact hd h1.symm
        · obtain ⟨a, _, ha⟩ := List.mem_map.mp h1
          simp only [Int.ofNat_eq_natCast] at ha
          omega
      unfold resolve at h
      split at h
      · cases h
      split at h
      · cases h
      simp only [if_neg hnot] at h
      split at h
      · cases h
        refine ⟨d.toNat, ?_⟩
        rw [List.map_cons, List.map_map]
        congr 1
        conv_rhs => rw [← List.map_id c]
        apply List.map_congr_left
        intro a _; rfl
      · cases h
  obtain ⟨h0, rfl⟩ := tail htr
  exact (C138_same_iff htr ho hs).mpr (tail ho)

theorem resolve_flatten (b p : Nat) (hb : 0 < b) : resolve (b * p) [(b : Int), -1] = some [b, p] := by
  have hb1 : ((b : Int) = -1) = False := by simp only [eq_iff_iff, iff_false]; omega
  have hb2 : ¬ ((b : Int) < -1) := by omega
  unfold resolve
  simp [hb1, hb2, List.count_cons, List.filter_cons, hb]

/-- **C138 (flattening).**  `x.view(x.size(0), -1)` is right for every batch size. -/
theorem C138_flatten (b0 b : Nat) (s : List Nat) (h0 : 0 < b0) (hb : 0 < b) (hs : 0 < s.prod) :
    static (fun s => [(s.headD 0 : Int), -1]) (b0 :: s) (b :: s) = some [b, s.prod] ∧
    original (fun s => [(s.headD 0 : Int), -1]) (b :: s) = some [b, s.prod] := by
  have h1 : original (fun s => [(s.headD 0 : Int), -1]) (b0 :: s) = some [b0, s.prod] := by
    unfold original; rw [List.prod_cons]; exact resolve_flatten b0 s.prod h0
  have h2 : original (fun s => [(s.headD 0 : Int), -1]) (b :: s) = some [b, s.prod] := by
    unfold original; rw [List.prod_cons]; exact resolve_flatten b s.prod hb
  refine ⟨(C138_same_iff h1 h2 ?_).mpr ⟨b, rfl⟩, h2⟩
  rw [List.prod_cons]; exact Nat.mul_pos hb hs

example : static (fun s => [(s.headD 0 : Int), -1]) [1, 3, 4] [5, 3, 4] = some [5, 12] := by decide

/-- **C138 (violated: the batch is not first).**  A reshape that puts the batch elsewhere, such as `x.reshape(1, -1)`,
is wrong or an error after the substitution for every batch size other than that of the traced images. -/
theorem C138_batch_violated (b0 b : Nat) (s : List Nat) (hne : b ≠ b0) (hs : 0 < s.prod) (h0 : 0 < b0) (hb : 0 < b) :
    original (fun _ => [1, -1]) (b :: s) = some [1, b * s.prod] ∧
    static (fun _ => [1, -1]) (b0 :: s) (b :: s) ≠ some [1, b * s.prod] := by
  have h : ∀ c : Nat, original (fun _ => [1, -1]) (c :: s) = some [1, c * s.prod] := by
    intro c
    unfold original; rw [List.prod_cons]
    have := resolve_flatten 1 (c * s.prod) (by omega)
    simpa using this
  refine ⟨h b, ?_⟩
  intro hx
  obtain ⟨k, hk⟩ := (C138_same_iff (h b0) (h b) (by rw [List.prod_cons]; exact Nat.mul_pos hb hs)).mp hx
  simp only [List.cons.injEq, and_true] at hk
  exact hne (Nat.eq_of_mul_eq_mul_right hs hk.2)

/-- Traced with one image and run with two, the two images become two rows; traced with two and run with one, an
error. -/
example : static (fun _ => [1, -1]) [1, 3] [2, 3] = some [2, 3] ∧ static (fun _ => [1, -1]) [2, 3] [1, 3] = none := by
  decide

/-- A model with the time first: `x.reshape(t, b, d)`. -/
example : original (fun s => [4, (s.headD 0 : Int), 2]) [3, 8] = some [4, 3, 2] ∧
    static (fun s => [4, (s.headD 0 : Int), 2]) [1, 8] [3, 8] = some [12, 1, 2] := by decide

/-- **C138 (violated: other image sizes).**  `x.view(b, c, -1)`, right for images of every size, is wrong or an error
for images with another number of pixels than the traced ones. -/
theorem C138_spatial_violated (b c p0 p : Nat) (hb : 0 < b) (hc : 0 < c) (hp : 0 < p) (hne : p ≠ p0)
    (f : List Nat → List Int) (traced s : List Nat) (hp0 : original f traced = some [b, c, p0])
    (hs : s.prod = b * c * p) (ho : original f s = some [b, c, p]) : static f traced s ≠ some [b, c, p] := by
  intro hx
  obtain ⟨k, hk⟩ := (C138_same_iff hp0 ho (by rw [hs]; exact Nat.mul_pos (Nat.mul_pos hb hc) hp)).mp hx
  simp only [List.cons.injEq, and_true, true_and] at hk
  exact hne hk.2

example : original (fun s => [(s.headD 0 : Int), 3, -1]) [1, 3, 4, 4] = some [1, 3, 16] ∧
    original (fun s => [(s.headD 0 : Int), 3, -1]) [1, 3, 8, 4] = some [1, 3, 32] ∧
    static (fun s => [(s.headD 0 : Int), 3, -1]) [1, 3, 4, 4] [1, 3, 8, 4] = some [2, 3, 16] := by decide

/-- **C138 (violated: no dimensions).**  A reshape to a tensor without dimensions ends with an error. -/
theorem C138_scalar_violated {f : List Nat → List Int} {traced s : List Nat} (h : original f traced = some []) :
    static f traced s = none := by
  unfold static; rw [h]; rfl

example : original (fun _ => []) [1, 1] = some [] := by decide

/-! ## Arguments -/

/-- **C138 (the call).**  A reshape whose tensor is its first positional argument and whose sizes are positional,
one by one or as one tuple, numbers or computed in the graph, is called with its tensor and the static sizes, and its
tensor is the only input it still lists. -/
theorem C138_call (c : Call) (d : List Int) (s : List Nat) (ones : List (List Nat)) (places : List Place)
    (hk : c.kwargs = []) (ha : c.allocs = .pos 0 :: places) (hi : c.inShapes = s :: ones)
    (h1 : ∀ x ∈ ones, x = [1]) :
    bind2 (merge (subCall c d) 1).1 (merge (subCall c d) 1).2 = some (0, d) ∧ (subCall c d).inShapes = [s] := by
  refine ⟨?_, by simp [subCall, hi]⟩
  have hz : ones.countP (· ≠ [1]) = 0 := by
    rw [List.countP_eq_zero]; intro x hx; simp [h1 x hx]
  unfold merge subCall
  simp only [hk, ha, hi, List.countP_cons, hz]
  by_cases hs : s = [1]
  · simp [hs, bind2]
  · simp [hs, insertInputs, bind2]

example : bind2 (merge (subCall ⟨[.size (-1)], [], [.pos 0, .pos 1], [[1, 3, 4], [1]]⟩ [-1, 12]) 1).1
    (merge (subCall ⟨[.size (-1)], [], [.pos 0, .pos 1], [[1, 3, 4], [1]]⟩ [-1, 12]) 1).2 = some (0, [-1, 12]) :=
  (C138_call _ _ [1, 3, 4] [[1]] [.pos 1] rfl rfl rfl (by simp)).1

/-- **C138 (violated: sizes by keyword).**  Sizes given as `shape=...` stay beside the static ones: the call was fine
before, and that of the substituted reshape raises an error, wherever the tensor is given. -/
theorem C138_keyword_violated (c : Call) (d d0 : List Int) (s : List Nat) (hs : s ≠ [1]) (h0 : c.args = [])
    (hk : c.kwargs = [("shape", .sizes d0)]) (hi : c.inShapes = [s])
    (ha : c.allocs = [.pos 0] ∨ c.allocs = [.kw "input"]) :
    bind2 (merge c 1).1 (merge c 1).2 = some (0, d0) ∧
      bind2 (merge (subCall c d) 1).1 (merge (subCall c d) 1).2 = none := by
  rcases ha with ha | ha <;>
  · unfold merge subCall
    simp [h0, hk, ha, hi, hs, insertInputs, bind2]

/-- Without the substitution the call is fine. -/
example : let c : Call := ⟨[], [("shape", .sizes [2, -1])], [.pos 0], [[1, 2, 3]]⟩
    bind2 (merge c 1).1 (merge c 1).2 = some (0, [2, -1]) ∧
    bind2 (merge (subCall c [-1, 3]) 1).1 (merge (subCall c [-1, 3]) 1).2 = none := by decide

/-! ## The graph -/

/-- The tensor of the reshape is not one of its sizes. -/
def DataNotSize (g : G) (r : Nat) : Prop :=
  ∀ e ∈ g.edges, ∀ e' ∈ g.edges, e.dst = r → e'.dst = r → e.sink = 0 → 0 < e'.sink → e.src ≠ e'.src

def cut (g : G) (r : Nat) : G :=
  { g with edges := g.edges.filter fun e => !(decide (e.dst = r) && decide (0 < e.sink)) }

theorem subst_eq {g : G} {r : Nat} (hd : DataNotSize g r) :
    g.subst r = (cut g r).clean ((g.sizeEdges r).map (·.src)) := by
  unfold G.subst
  rw [cut_eq hd]
  rfl

theorem subst_inv {g g' : G} {r : Nat} (hc : Closed g) (hd : DataNotSize g r) (h : g.subst r = some g') :
    Closed g' ∧ g'.outputs = g.outputs ∧ g'.inputs = g.inputs ∧
      (∀ n ∈ g'.nodes, n ∈ g.nodes ∧ g'.ins n = (cut g r).ins n) ∧
      (∀ o ∈ g.outputs, o ∈ g.nodes → o ∈ g'.nodes) ∧ (∀ e ∈ g'.edges, e ∈ (cut g r).edges) ∧
      (∀ n ∈ g.nodes, g.outs n ≠ [] → n ∈ g'.nodes → n ∈ g'.outputs ∨ g'.outs n ≠ []) := by
  rw [subst_eq hd] at h
  have main := clean_inv (fun k st => Closed k ∧ k.outputs = g.outputs ∧ k.inputs = g.inputs ∧
      (∀ n ∈ k.nodes, n ∈ g.nodes ∧ k.ins n = (cut g r).ins n) ∧
      (∀ o ∈ g.outputs, o ∈ g.nodes → o ∈ k.nodes) ∧ (∀ e ∈ k.edges, e ∈ (cut g r).edges) ∧
      (∀ n ∈ g.nodes, g.outs n ≠ [] → n ∈ k.nodes → n ∈ k.outputs ∨ k.outs n ≠ [] ∨ n ∈ st)) ?_ (cut g r)
      ((g.sizeEdges r).map (·.src)) ?_ g' h
  · obtain ⟨h1, h2, h3, h4, h5, h6, h7⟩ := main
    refine ⟨h1, h2, h3, h4, h5, h6, ?_⟩
    intro n hn ho hn'
    rcases h7 n hn ho hn' with h | h | h
    · exact .inl h
    · exact .inr h
    · simp at h
  · rintro k n ns k' l ⟨h1, h2, h3, h4, h5, h6, h7⟩ hone
    obtain ⟨hn, ⟨hout, hno, _, rfl, rfl⟩ | ⟨hnd, rfl, rfl⟩⟩ := cleanOne_iff.mp hone
    · have hsrc : ∀ e ∈ k.edges, e.src ≠ n := by
        intro e he hs
        simp only [G.outs, List.filter_eq_nil_iff] at hout
        exact hout e he (by simpa using hs)
      refine ⟨?_, h2, h3, ?_, ?_, ?_, ?_⟩
      · intro e he
        simp only [List.mem_filter] at he
        obtain ⟨he, hne⟩ := he
        simp only [List.mem_filter]
        exact ⟨⟨(h1 e he).1, by simpa using hsrc e he⟩, ⟨(h1 e he).2, by simpa using hne⟩⟩
      · intro m hm
        simp only [List.mem_filter, decide_eq_true_eq] at hm
        obtain ⟨a, b⟩ := h4 m hm.1
        refine ⟨a, ?_⟩
        rw [← b]
        simp only [G.ins, List.filter_filter]
        apply List.filter_congr
        intro e _
        by_cases hem : e.dst = m
        · subst hem; simp [hm.2]
        · simp [hem]
      · intro o ho hon
        simp only [List.mem_filter, decide_eq_true_eq]
        refine ⟨h5 o ho hon, ?_⟩
        rintro rfl
        exact hno (h2 ▸ ho)
      · intro e he
        exact h6 e (List.mem_filter.mp he).1
      · intro m hm hmo hmk
        simp only [List.mem_filter, decide_eq_true_eq] at hmk
        rcases h7 m hm hmo hmk.1 with h | h | h
        · exact .inl h
        · obtain ⟨e, he⟩ := List.exists_mem_of_ne_nil _ h
          simp only [G.outs, List.mem_filter, decide_eq_true_eq] at he
          by_cases hen : e.dst = n
          · right; right
            apply List.mem_append_left
            rw [List.mem_map]
            exact ⟨e, by simp [G.ins, he.1, hen], he.2⟩
          · right; left
            apply List.ne_nil_of_mem (a := e)
            simp [G.outs, he, hen]
        · rcases List.mem_cons.mp h with h | h
          · exact absurd h hmk.2
          · exact .inr (.inr (List.mem_append_right _ h))
    · refine ⟨h1, h2, h3, h4, h5, h6, ?_⟩
      intro m hm hmo hmk
      rcases h7 m hm hmo hmk with h | h | h
      · exact .inl h
      · exact .inr (.inl h)
      · rcases List.mem_cons.mp h with h | h
        · subst h
          by_cases hout : k'.outs m = []
          · left
            by_contra hno
            exact hnd ⟨hout, hno⟩
          · exact .inr (.inl hout)
        · exact .inr (.inr h)
  · refine ⟨?_, rfl, rfl, fun n hn => ⟨hn, rfl⟩, fun o _ h => h, fun e he => he, ?_⟩
    · intro e he
      exact hc e (List.mem_filter.mp he).1
    · intro n hn ho _
      obtain ⟨e, he⟩ := List.exists_mem_of_ne_nil _ ho
      simp only [G.outs, List.mem_filter, decide_eq_true_eq] at he
      by_cases hen : e.dst = r ∧ 0 < e.sink
      · right; right
        rw [List.mem_map]
        exact ⟨e, by simp [G.sizeEdges, G.ins, he.1, hen.1, hen.2], he.2⟩
      · right; left
        apply List.ne_nil_of_mem (a := e)
        simp only [G.outs, cut, List.mem_filter, Bool.not_eq_true', Bool.and_eq_false_iff, decide_eq_false_iff_not,
          decide_eq_true_eq]
        refine ⟨⟨he.1, ?_⟩, he.2⟩
        by_cases h1 : e.dst = r
        · right; exact fun h2 => hen ⟨h1, h2⟩
        · exact .inl h1

/-- **C138 (outputs).**  When the static reshape, given its tensor alone, has the value the reshape had, every output
of the model keeps its value, whatever the other nodes compute. -/
theorem C138_outputs {V : Type} {g g' : G} {r : Nat} (hc : Closed g) (ho : Ordered g) (hd : DataNotSize g r)
    (h : g.subst r = some g') {op op' : Nat → List (Nat × V) → V} {v w : Nat → V}
    (hv : Run g op v) (hw : Run g' op' w) (hop : ∀ n, n ≠ r → op' n = op n)
    (hr : op' r (((g.edges.filter fun e => e.dst = r ∧ e.sink = 0)).map fun e => (e.sink, v e.src)) =
      op r ((g.edges.filter (·.dst = r)).map fun e => (e.sink, v e.src))) :
    g'.outputs = g.outputs ∧ ∀ o ∈ g.outputs, o ∈ g.nodes → o ∈ g'.nodes ∧ w o = v o := by
  obtain ⟨h1, h2, _, h4, h5, h6, _⟩ := subst_inv hc hd h
  refine ⟨h2, fun o hoo hon => ⟨h5 o hoo hon, ?_⟩⟩
  have ho' : Ordered g' := fun e he => ho e (List.mem_filter.mp (h6 e he)).1
  have hv' : Run g' op' v := by
    intro n hn
    obtain ⟨hn1, hn2⟩ := h4 n hn
    rw [hv n hn1]
    change op n _ = op' n ((g'.ins n).map _)
    rw [hn2]
    by_cases hnr : n = r
    · subst hnr
      rw [← hr]
      congr 2
      simp only [G.ins, cut, List.filter_filter]
      apply List.filter_congr
      intro e _
      by_cases h1 : e.dst = n <;> by_cases h2 : e.sink = 0 <;> simp [h1, h2, Nat.pos_iff_ne_zero]
    · rw [hop n hnr]
      congr 2
      simp only [G.ins, cut, List.filter_filter]
      apply List.filter_congr
      intro e _
      by_cases h1 : e.dst = n
      · simp [h1, hnr]
      · simp [h1]
  exact (run_unique h1 ho' hv' hw o (h5 o hoo hon)).symm

/-- **C138 (what stays).**  Every node an output depends on, other than through the sizes of the reshape, stays. -/
theorem C138_kept {g g' : G} {r : Nat} (hc : Closed g) (hd : DataNotSize g r) (h : g.subst r = some g')
    {n o : Nat} (ho : o ∈ g.outputs) (hon : o ∈ g.nodes) (hf : Feeds g r n o) : n ∈ g'.nodes := by
  obtain ⟨h1, _, _, h4, h5, _, _⟩ := subst_inv hc hd h
  induction hf with
  | refl n => exact h5 n ho hon
  | step e he hs _ ih =>
    have hdst := ih ho hon
    have hin : e ∈ g'.ins e.dst := by
      rw [(h4 _ hdst).2]
      simp only [G.ins, cut, List.mem_filter, decide_true, and_true]
      refine ⟨he, ?_⟩
      simp only [IsSize, not_and] at hs
      simp only [Bool.not_eq_true', Bool.and_eq_false_iff, decide_eq_false_iff_not]
      by_cases hx : e.dst = r
      · exact .inr (hs hx)
      · exact .inl hx
    simp only [G.ins, List.mem_filter] at hin
    exact (h1 e hin.1).1

/-- **C138 (what leaves).**  No node is left that served only to compute sizes: a node that had a consumer still has
one, or is an output. -/
theorem C138_no_leftovers {g g' : G} {r : Nat} (hc : Closed g) (hd : DataNotSize g r) (h : g.subst r = some g')
    {n : Nat} (hn : n ∈ g'.nodes) (hout : g.outs n ≠ []) : n ∈ g.outputs ∨ g'.outs n ≠ [] := by
  obtain ⟨_, h2, _, h4, _, _, h7⟩ := subst_inv hc hd h
  rw [← h2]
  exact h7 n (h4 n hn).1 hout hn

/-- The live nodes stay live while other nodes leave. -/
def LiveSet (g : G) (L : Nat → Prop) : Prop :=
  ∀ n, L n → n ∈ g.outputs ∨ ∃ e ∈ g.edges, e.src = n ∧ L e.dst

/-- **C138 (no error, partial).**  The substitution succeeds when no two arguments of a node come from the same node,
the arguments were added in the order of computation, and every input of the model is needed for more than sizes.
Missing: graphs with repeated arguments, for which it is false. -/
theorem C138_success_partial {g : G} {r : Nat} (hc : Closed g) (ho : Ordered g)
    (hp : ∀ n, (g.ins n).Pairwise (fun a b => a.src < b.src))
    (hin : ∀ i ∈ g.inputs, ∃ o ∈ g.outputs, Feeds g r i o) : ∃ g', g.subst r = some g' := by
  have hd : DataNotSize g r := by
    intro e he e' he' h1 h2 h3 h4 hs
    have hne : e ≠ e' := by rintro rfl; omega
    have m1 : e ∈ g.ins r := by simp [G.ins, he, h1]
    have m2 : e' ∈ g.ins r := by simp [G.ins, he', h2]
    have hpw := (hp r).imp (S := fun (a b : Edge) => a.src ≠ b.src) (fun h => Nat.ne_of_lt h)
    haveI : Std.Symm (fun (a b : Edge) => a.src ≠ b.src) := ⟨fun _ _ h => h.symm⟩
    exact hpw.forall m1 m2 hne hs
  rw [subst_eq hd]
  let L : Nat → Prop := fun n => ∃ o ∈ g.outputs, Feeds g r n o
  refine clean_ok (fun k st => Closed k ∧ k.outputs = g.outputs ∧ k.inputs = g.inputs ∧ LiveSet k L ∧
      (∀ e ∈ k.edges, e.src < e.dst) ∧ (∀ n, (k.ins n).Pairwise (fun a b => a.src < b.src)) ∧
      st.Pairwise (· < ·) ∧ (∀ n ∈ st, n ∈ k.nodes)) ?_ _ _ ?_
  · rintro k n ns ⟨h1, h2, h3, h4, h5, h6, h7, h8⟩
    rw [List.pairwise_cons] at h7
    by_cases hdead : k.outs n = [] ∧ n ∉ k.outputs
    · have hsrc : ∀ e ∈ k.edges, e.src ≠ n := by
        intro e he hs
        have := hdead.1
        simp only [G.outs, List.filter_eq_nil_iff] at this
        exact this e he (by simpa using hs)
      have hnL : ¬ L n := by
        intro hL
        rcases h4 n hL with h | ⟨e, he, hs, _⟩
        · exact hdead.2 h
        · exact hsrc e he hs
      have hni : n ∉ k.inputs := fun h => hnL (hin n (h3 ▸ h))
      refine ⟨_, _, cleanOne_iff.mpr ⟨h8 n (by simp), .inl ⟨hdead.1, hdead.2, hni, rfl, rfl⟩⟩, ?_⟩
      refine ⟨?_, h2, h3, ?_, ?_, ?_, ?_, ?_⟩
      · intro e he
        simp only [List.mem_filter] at he
        obtain ⟨he, hne⟩ := he
        simp only [List.mem_filter]
        exact ⟨⟨(h1 e he).1, by simpa using hsrc e he⟩, ⟨(h1 e he).2, by simpa using hne⟩⟩
      · intro m hm
        rcases h4 m hm with h | ⟨e, he, hs, hL⟩
        · exact .inl h
        · right
          refine ⟨e, ?_, hs, hL⟩
          simp only [List.mem_filter]
          refine ⟨he, ?_⟩
          have : e.dst ≠ n := fun h => hnL (h ▸ hL)
          simpa using this
      · intro e he
        exact h5 e (List.mem_filter.mp he).1
      · intro m
        simp only [G.ins, List.filter_filter]
        have hsub : (k.edges.filter fun e => decide (e.dst = m) && !decide (e.dst = n)).Sublist (k.ins m) := by
          have := List.filter_sublist (p := fun e : Edge => !decide (e.dst = n)) (l := k.ins m)
          simp only [G.ins, List.filter_filter] at this
          have hcomm : (fun e : Edge => decide (e.dst = m) && !decide (e.dst = n)) =
              fun e => !decide (e.dst = n) && decide (e.dst = m) := by funext e; exact Bool.and_comm _ _
          rw [hcomm]
          exact this
        exact (h6 m).sublist hsub
      · rw [List.pairwise_append]
        refine ⟨?_, h7.2, ?_⟩
        · rw [List.pairwise_map]; exact h6 n
        · intro a ha b hb
          obtain ⟨e, he, rfl⟩ := List.mem_map.mp ha
          simp only [G.ins, List.mem_filter, decide_eq_true_eq] at he
          have h9 := h5 e he.1
          rw [he.2] at h9
          exact lt_trans h9 (h7.1 b hb)
      · intro m hm
        simp only [List.mem_filter, decide_eq_true_eq]
        rcases List.mem_append.mp hm with hm | hm
        · obtain ⟨e, he, rfl⟩ := List.mem_map.mp hm
          simp only [G.ins, List.mem_filter, decide_eq_true_eq] at he
          exact ⟨(h1 e he.1).1, hsrc e he.1⟩
        · exact ⟨h8 m (List.mem_cons_of_mem _ hm), fun h => absurd (h7.1 m hm) (by omega)⟩
    · refine ⟨k, [], cleanOne_iff.mpr ⟨h8 n (by simp), .inr ⟨hdead, rfl, rfl⟩⟩, h1, h2, h3, h4, h5, h6, h7.2, ?_⟩
      intro m hm
      exact h8 m (List.mem_cons_of_mem _ hm)
  · refine ⟨fun e he => hc e (List.mem_filter.mp he).1, rfl, rfl, ?_, fun e he => ho e (List.mem_filter.mp he).1,
      ?_, ?_, ?_⟩
    · rintro n ⟨o, hoo, hf⟩
      cases hf with
      | refl => exact .inl hoo
      | step e he hs hf =>
        right
        refine ⟨e, ?_, rfl, o, hoo, hf⟩
        simp only [cut, List.mem_filter]
        refine ⟨he, ?_⟩
        simp only [IsSize, not_and] at hs
        simp only [Bool.not_eq_true', Bool.and_eq_false_iff, decide_eq_false_iff_not]
        by_cases hx : e.dst = r
        · exact .inr (hs hx)
        · exact .inl hx
    · intro m
      have hsub : ((cut g r).ins m).Sublist (g.ins m) := by
        have := List.filter_sublist (p := fun e : Edge => !(decide (e.dst = r) && decide (0 < e.sink))) (l := g.ins m)
        simp only [G.ins, cut, List.filter_filter] at this ⊢
        convert this using 2
        funext e
        exact Bool.and_comm _ _
      exact (hp m).sublist hsub
    · rw [List.pairwise_map]
      exact (hp r).sublist List.filter_sublist
    · intro m hm
      obtain ⟨e, he, rfl⟩ := List.mem_map.mp hm
      simp only [G.sizeEdges, G.ins, List.mem_filter] at he
      exact (hc e he.1.1).1

/-- x (0), `b = x.size(0)` (1), `c = x.size(1)` (2), `h = x.size(2)` (3), `c * h` (4), a convolution (5),
`view(conv, b, c * h)` (6). -/
def exG : G :=
  { nodes := [0, 1, 2, 3, 4, 5, 6],
    edges := [⟨0, 1, 0⟩, ⟨0, 2, 0⟩, ⟨0, 3, 0⟩, ⟨0, 5, 0⟩, ⟨1, 6, 1⟩, ⟨2, 4, 0⟩, ⟨3, 4, 1⟩, ⟨4, 6, 2⟩, ⟨5, 6, 0⟩],
    inputs := [0], outputs := [6] }

/-- The hypotheses of the theorems hold of it. -/
example : Closed exG ∧ Ordered exG ∧ DataNotSize exG 6 ∧
    (∀ n, (exG.ins n).Pairwise (fun a b => a.src < b.src)) ∧
    (∀ i ∈ exG.inputs, ∃ o ∈ exG.outputs, Feeds exG 6 i o) ∧ exG.outs 4 ≠ [] := by
  refine ⟨by simp [Closed, exG], by simp [Ordered, exG], by simp [DataNotSize, exG], ?_, ?_, by decide⟩
  · intro n
    by_cases h : n < 7
    · have : ∀ n < 7, (exG.ins n).Pairwise (fun a b => a.src < b.src) := by decide
      exact this n h
    · have : exG.ins n = [] := by
        simp only [G.ins, exG, List.filter_eq_nil_iff, decide_eq_true_eq]
        intro e he
        simp only [List.mem_cons, List.not_mem_nil, or_false] at he
        rcases he with rfl | rfl | rfl | rfl | rfl | rfl | rfl | rfl | rfl <;> simp <;> omega
      rw [this]; exact List.Pairwise.nil
  · intro i hi
    simp only [exG, List.mem_singleton] at hi
    subst hi
    exact ⟨6, by simp [exG], .step ⟨0, 5, 0⟩ (by simp [exG]) (by simp [IsSize])
      (.step ⟨5, 6, 0⟩ (by simp [exG]) (by simp [IsSize]) (.refl 6))⟩

/-- **C138 (violated: a size used twice).**  A size computed in the graph and given twice, as in `x.view(b, k, k)`,
ends with an error, unless it has other consumers. -/
theorem C138_twice_violated {g : G} {r u : Nat} (hd : DataNotSize g r)
    (h2 : 2 ≤ (g.edges.filter fun e => e.dst = r ∧ 0 < e.sink ∧ e.src = u).length)
    (hu : ∀ e ∈ g.edges, e.src = u → IsSize r e) (ho : u ∉ g.outputs) : g.subst r = none := by
  rw [subst_eq hd]
  refine clean_twice _ _ u ?_ ho ?_
  · simp only [G.outs, cut, List.filter_eq_nil_iff, List.mem_filter]
    rintro e ⟨he, hne⟩ hs
    have := hu e he (by simpa using hs)
    simp [this.1, this.2] at hne
  · rw [List.count, List.countP_map, ← List.countP_eq_length_filter] at *
    simp only [G.sizeEdges, G.ins, List.countP_filter]
    refine le_trans h2 (le_of_eq ?_)
    apply List.countP_congr
    intro e _
    simp only [decide_eq_true_eq, Function.comp, Bool.and_eq_true, beq_iff_eq]
    tauto

/-- x (0), `k = x.size(1)` (1), `x.view(-1, k, k)` (2). -/
example : (⟨[0, 1, 2], [⟨0, 1, 0⟩, ⟨0, 2, 0⟩, ⟨1, 2, 1⟩, ⟨1, 2, 2⟩], [0], [2]⟩ : G).subst 2 = none :=
  C138_twice_violated (u := 1) (by simp [DataNotSize]) (by decide) (by simp [IsSize]) (by simp)

theorem inputs_kept {g g' : G} {r : Nat} (hd : DataNotSize g r) (h : g.subst r = some g') :
    ∀ i ∈ g.inputs, i ∈ g.nodes → i ∈ g'.nodes := by
  rw [subst_eq hd] at h
  intro i hi hn
  have := clean_inv (fun k _ => i ∈ k.inputs ∧ i ∈ k.nodes) ?_ (cut g r) _ ⟨hi, hn⟩ _ h
  · exact this.2
  · rintro k n ns k' l ⟨a1, a2⟩ hone
    obtain ⟨_, ⟨_, _, hni, rfl, rfl⟩ | ⟨_, rfl, rfl⟩⟩ := cleanOne_iff.mp hone
    · refine ⟨a1, ?_⟩
      simp only [List.mem_filter, decide_eq_true_eq]
      exact ⟨a2, fun h => hni (h ▸ a1)⟩
    · exact ⟨a1, a2⟩

/-- **C138 (violated: an input needed for its size only).**  Let `D` be nodes that are used for nothing but the sizes
of the reshape.  If an input of the model is one of them, the substitution ends with an error. -/
theorem C138_input_violated {g : G} {r u : Nat} (hc : Closed g) (ho : Ordered g) (hd : DataNotSize g r)
    (D : Nat → Prop)
    (hD : ∀ n, D n → n ∉ g.outputs ∧ g.outs n ≠ [] ∧ ∀ e ∈ g.edges, e.src = n → D e.dst ∨ IsSize r e)
    (hu : D u) (hi : u ∈ g.inputs) (hn : u ∈ g.nodes) : g.subst r = none := by
  cases hx : g.subst r with
  | none => rfl
  | some g' =>
    exfalso
    obtain ⟨h1, h2, _, _, _, h6, _⟩ := subst_inv hc hd hx
    obtain ⟨M, hM⟩ : ∃ M, ∀ n ∈ g'.nodes, n ≤ M := by
      refine ⟨g'.nodes.sum, fun n hn => List.le_sum_of_mem hn⟩
    have key : ∀ k n, M - n ≤ k → D n → n ∈ g'.nodes → False := by
      intro k
      induction k with
      | zero =>
        intro n hk hDn hng
        rcases C138_no_leftovers hc hd hx hng (hD n hDn).2.1 with h | h
        · exact (hD n hDn).1 h
        · obtain ⟨e, he⟩ := List.exists_mem_of_ne_nil _ h
          simp only [G.outs, List.mem_filter, decide_eq_true_eq] at he
          have hlt := ho e (List.mem_filter.mp (h6 e he.1)).1
          have := hM _ (h1 e he.1).2
          omega
      | succ k ih =>
        intro n hk hDn hng
        rcases C138_no_leftovers hc hd hx hng (hD n hDn).2.1 with h | h
        · exact (hD n hDn).1 h
        · obtain ⟨e, he⟩ := List.exists_mem_of_ne_nil _ h
          simp only [G.outs, List.mem_filter, decide_eq_true_eq] at he
          have hcut := List.mem_filter.mp (h6 e he.1)
          have hlt := ho e hcut.1
          rcases (hD n hDn).2.2 e hcut.1 he.2 with hDe | hs
          · exact ih e.dst (by have := hM n hng; omega) hDe (h1 e he.1).2
          · have := hcut.2
            simp [hs.1, hs.2] at this
    exact key _ u le_rfl hu (inputs_kept hd hx u hi hn)

/-- x (0) and a second input y (1): `x.view(y.size(0), -1)` reads the size in its own node (2). -/
example : (⟨[0, 1, 2, 3], [⟨0, 3, 0⟩, ⟨1, 2, 0⟩, ⟨2, 3, 1⟩], [0, 1], [3]⟩ : G).subst 3 = none :=
  C138_input_violated (u := 1) (by simp [Closed]) (by simp [Ordered]) (by simp [DataNotSize]) (fun n => n = 1 ∨ n = 2)
    (by rintro n (rfl | rfl) <;> simp [G.outs, IsSize]) (.inl rfl) (by simp) (by simp)

end MCT.Reshape
