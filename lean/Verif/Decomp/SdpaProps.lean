import Verif.Decomp.Sdpa
import Verif.Decomp.MhaProps

/-!
# C109: scaled dot-product attention after the decomposition
-/

namespace MCT.Decomp

variable {K : Type}

/-! ## What the operation computes -/

/-- A tensor of shape `m` can be broadcast to shape `s`: its sizes are the last sizes of `s`,
or one. -/
def BroadcastsTo (m s : List ℕ) : Prop :=
  m.length ≤ s.length ∧ List.Forall₂ (fun a b => a = b ∨ a = 1) m (s.drop (s.length - m.length))

/-- The score of query position `i` and key position `t` for batch index `p`: scaled scalar
product plus the entry of the mask.  `bidx` is the index that broadcasting reads. -/
def scoreSpec [Field K] (scale : K) (d : ℕ) (qs ks : List ℕ) (q k : Tensor K)
    (m : Option (Tensor K)) (p : List ℕ) (i t : ℕ) : K :=
  (sumN d fun j => q.get (bidx qs p ++ [i, j]) * k.get (bidx ks p ++ [t, j])) * scale +
    (m.map fun u => bget u (p ++ [i, t])).getD 0

/-- Entry (batch index `p`, position `i`, channel `c`) of `softmax(q kᵀ scale + mask) v`; `sb`
is the shape of the batch dimensions of the scores. -/
def sdpaSpec [Field K] (e : K → K) (scale : K) (d s : ℕ) (qs ks sb vs : List ℕ)
    (q k v : Tensor K) (m : Option (Tensor K)) (p : List ℕ) (i c : ℕ) : K :=
  sumN s fun t =>
    (e (scoreSpec scale d qs ks q k m (bidx sb p) i t) /
      sumN s fun t' => e (scoreSpec scale d qs ks q k m (bidx sb p) i t')) *
        v.get (bidx vs p ++ [t, c])

/-- The factor a caller asks for: the given one, or one over the root of the size. -/
def scaleSpec (rs : ℕ → K) (given : Option K) (d : ℕ) : K := given.getD (rs d)

/-! ## Proofs -/

theorem swap_last (l : List ℕ) (a b : ℕ) :
    swap (l.length + 1) l.length (l ++ [a, b]) = l ++ [b, a] := by
  unfold swap
  have h1 : (l ++ [a, b]).getD l.length 0 = a := by simp [List.getD]
  have h2 : (l ++ [a, b]).getD (l.length + 1) 0 = b := by simp [List.getD]
  rw [h1, h2, List.set_append_right _ _ (by omega), List.set_append_right _ _ (by omega)]
  simp

theorem transpose_last {k : Tensor K} {ks : List ℕ} {s d : ℕ} (hk : k.shape = ks ++ [s, d]) :
    ∃ kt, transpose (k.shape.length - 1) (k.shape.length - 2) k = some kt ∧
      kt.shape = ks ++ [d, s] ∧
      ∀ p a b, p.length = ks.length → kt.get (p ++ [a, b]) = k.get (p ++ [b, a]) := by
  have l1 : k.shape.length - 1 = ks.length + 1 := by rw [hk]; simp
  have l2 : k.shape.length - 2 = ks.length := by rw [hk]; simp
  refine ⟨⟨swap (k.shape.length - 1) (k.shape.length - 2) k.shape, fun i => k.get
    (swap (k.shape.length - 1) (k.shape.length - 2) i)⟩, ?_, ?_, ?_⟩
  · unfold transpose
    rw [if_pos]
    have : 2 ≤ k.shape.length := by rw [hk]; simp
    omega
  · simp only [l1, l2]; rw [hk, swap_last]
  · intro p a b hp
    simp only [l1, l2]
    rw [← hp, swap_last]

theorem addTo_eq [Field K] {x m : Tensor K} (h : BroadcastsTo m.shape x.shape) :
    addTo x m = some ⟨x.shape, fun i => x.get i + bget m i⟩ := by
  unfold addTo
  rw [if_pos]
  refine ⟨h.1, ?_⟩
  have key : ∀ {a b : List ℕ}, List.Forall₂ (fun a b => a = b ∨ a = 1) a b →
      (List.zipWith (fun a b => a == b || a == 1) a b).all id = true := by
    intro a b hf
    induction hf with
    | nil => rfl
    | cons h _ ih => simp only [List.zipWith_cons_cons, List.all_cons, ih]; simpa using h
  exact key h.2

/-- C109: the nodes that replace the operation compute attention with the factor and mask they
are given, for every rank and with broadcasting. -/
theorem C109_attention [Field K] (e : K → K) (f : K) {q k v : Tensor K}
    {m : Option (Tensor K)} {qs ks vs sb b : List ℕ} {l s d c : ℕ}
    (hq : q.shape = qs ++ [l, d]) (hk : k.shape = ks ++ [s, d]) (hv : v.shape = vs ++ [s, c])
    (hb1 : bshape qs ks = some sb) (hb : bshape sb vs = some b)
    (hm : ∀ u ∈ m, BroadcastsTo u.shape (sb ++ [l, s])) :
    ∃ r, runSdpa e f m q k v = some r ∧ r.shape = b ++ [l, c] ∧
      ∀ p i j, p.length = b.length →
        r.get (p ++ [i, j]) = sdpaSpec e f d s qs ks sb vs q k v m p i j := by
  obtain ⟨kt, hkt, skt, gkt⟩ := transpose_last hk
  obtain ⟨sc, hsc, ssc, gsc⟩ := matmul_append hq skt hb1
  have hlb := bshape_length hb1
  have hlv := bshape_length hb
  obtain ⟨s1, hs1, ss1, gs1⟩ : ∃ s1, withMask (mulScalar f sc) m = some s1 ∧ s1.shape = sb ++ [l, s] ∧
        ∀ p i t, p.length = sb.length →
          s1.get (p ++ [i, t]) = scoreSpec f d qs ks q k m p i t := by
    have base : ∀ p i t, p.length = sb.length → sc.get (p ++ [i, t]) * f =
        (sumN d fun j => q.get (bidx qs p ++ [i, j]) * k.get (bidx ks p ++ [t, j])) * f := by
      intro p i t hp
      rw [gsc p i t hp]
      congr 1
      apply sumN_congr
      intro j _
      rw [gkt _ _ _ (by rw [bidx_length]; omega)]
    cases m with
    | none =>
      refine ⟨_, rfl, ssc, fun p i t hp => ?_⟩
      simp only [mulScalar, scoreSpec, Option.map_none, Option.getD_none, add_zero]
      exact base p i t hp
    | some u =>
      have := hm u rfl
      rw [← ssc] at this
      refine ⟨_, addTo_eq (x := mulScalar f sc) this, ssc, fun p i t hp => ?_⟩
      simp only [mulScalar, scoreSpec, Option.map_some, Option.getD_some]
      rw [base p i t hp]
  obtain ⟨r, hr, sr, gr⟩ := matmul_append (x := softmax e s1) (xs := sb) (m := l) (p := s)
    (by rw [← ss1]; rfl) hv hb
  refine ⟨r, ?_, sr, ?_⟩
  · unfold runSdpa
    rw [hkt, Option.bind_some, hsc, Option.bind_some, hs1, Option.bind_some, hr]
  · intro p i j hp
    rw [gr p i j hp]
    unfold sdpaSpec
    apply sumN_congr
    intro t _
    congr 1
    have hbl : (bidx sb p).length = sb.length := by rw [bidx_length]; omega
    have hlast : s1.shape.getLastD 0 = s := by rw [ss1]; simp
    have hdrop : (bidx sb p ++ [i, t]).dropLast = bidx sb p ++ [i] := by
      rw [show bidx sb p ++ [i, t] = (bidx sb p ++ [i]) ++ [t] by simp, List.dropLast_concat]
    simp only [softmax, hlast, hdrop]
    rw [gs1 _ _ _ hbl]
    congr 1
    apply sumN_congr
    intro t' _
    rw [List.append_assoc]
    exact congrArg e (gs1 _ _ _ hbl)

/-- Constants among the arguments, whether passed by position or by keyword, do not change
which tensors of the model become query, key and value. -/
theorem roles_const {l mp mk : List Arg} (hl : ∀ a ∈ l, a.const = false)
    (hp : ∀ a ∈ mp, a.const = true) (hk : ∀ a ∈ mk, a.const = true) :
    callEdges (l ++ mp) mk = callEdges l [] := by
  have hdis : ∀ a ∈ l, a ∉ mp ++ mk := by
    intro a ha hm
    rcases List.mem_append.1 hm with h | h
    · have := hp a h; rw [hl a ha] at this; cases this
    · have := hk a h; rw [hl a ha] at this; cases this
  have hall : allInputs (l ++ mp ++ mk) =
      allInputs l ++ (((mp ++ mk).removeAll l).eraseDups) := by
    unfold allInputs
    rw [List.append_assoc, List.eraseDups_append]
  have hfil : (allInputs (l ++ mp ++ mk)).filter (fun a => !a.const) =
      (allInputs l).filter fun a => !a.const := by
    rw [hall, List.filter_append]
    have : ((mp ++ mk).removeAll l).eraseDups.filter (fun a => !a.const) = [] := by
      rw [List.filter_eq_nil_iff]
      intro a ha
      rw [List.mem_eraseDups] at ha
      have ha' : a ∈ mp ++ mk := List.mem_of_mem_filter ha
      rcases List.mem_append.1 ha' with h | h
      · simp [hp a h]
      · simp [hk a h]
    rw [this, List.append_nil]
  unfold callEdges
  simp only [hfil, List.append_nil]
  apply List.flatMap_congr
  intro a ha
  have ha1 : a ∈ allInputs l := by
    have := (List.perm_insertionSort _ _).mem_iff.1 ha
    exact List.mem_of_mem_filter this
  have ha2 : a ∈ l := List.mem_eraseDups.1 ha1
  have c1 : (l ++ mp).count a = l.count a := by
    rw [List.count_append, List.count_eq_zero.2 fun h => hdis a ha2 (List.mem_append_left _ h),
      Nat.add_zero]
  have i1 : (allInputs (l ++ mp ++ mk)).idxOf a = (allInputs l).idxOf a := by
    rw [hall, List.idxOf_append_of_mem ha1]
  rw [c1, i1]

theorem roles_distinct {x y z : ℕ} (h1 : x ≠ y) (h2 : x ≠ z) (h3 : y ≠ z) :
    prevNodes (callEdges [⟨x, false⟩, ⟨y, false⟩, ⟨z, false⟩] []) = [x, y, z] := by
  have e : allInputs [⟨x, false⟩, ⟨y, false⟩, ⟨z, false⟩] = [⟨x, false⟩, ⟨y, false⟩, ⟨z, false⟩] :=
    allInputs_three (by simp [h1]) (by simp [h2]) (by simp [h3])
  have c1 : List.count (⟨x, false⟩ : Arg) [⟨x, false⟩, ⟨y, false⟩, ⟨z, false⟩] = 1 := by
    simp [List.count_cons, h1.symm, h2.symm]
  have c2 : List.count (⟨y, false⟩ : Arg) [⟨x, false⟩, ⟨y, false⟩, ⟨z, false⟩] = 1 := by
    simp [List.count_cons, h1, h3.symm]
  have c3 : List.count (⟨z, false⟩ : Arg) [⟨x, false⟩, ⟨y, false⟩, ⟨z, false⟩] = 1 := by
    simp [List.count_cons, h2, h3]
  have i1 : List.idxOf (⟨x, false⟩ : Arg) [⟨x, false⟩, ⟨y, false⟩, ⟨z, false⟩] = 0 := by
    simp
  have i2 : List.idxOf (⟨y, false⟩ : Arg) [⟨x, false⟩, ⟨y, false⟩, ⟨z, false⟩] = 1 := by
    simp [List.idxOf_cons, h1]
  have i3 : List.idxOf (⟨z, false⟩ : Arg) [⟨x, false⟩, ⟨y, false⟩, ⟨z, false⟩] = 2 := by
    simp [List.idxOf_cons, h2, h3]
  unfold callEdges
  simp only [List.append_nil, e]
  have hf : ([⟨x, false⟩, ⟨y, false⟩, ⟨z, false⟩] : List Arg).filter (fun a => !a.const) =
      [⟨x, false⟩, ⟨y, false⟩, ⟨z, false⟩] := by simp
  rw [hf]
  by_cases o1 : x ≤ y <;> by_cases o2 : y ≤ z <;> by_cases o3 : x ≤ z <;>
    first
    | (exfalso; omega)
    | simp [List.insertionSort, List.orderedInsert, o1, o2, o3, c1, c2, c3, i1, i2, i3, prevNodes]

theorem roles_all (x : ℕ) :
    prevNodes (callEdges [⟨x, false⟩, ⟨x, false⟩, ⟨x, false⟩] []) = [x, x, x] := by
  simp [callEdges, allInputs, List.eraseDups_cons, List.insertionSort, List.orderedInsert,
    prevNodes, List.count_cons, List.range_succ]

theorem roles_kv {x y : ℕ} (h : x ≠ y) :
    prevNodes (callEdges [⟨x, false⟩, ⟨y, false⟩, ⟨y, false⟩] []) = [x, y, y] := by
  have e : allInputs [⟨x, false⟩, ⟨y, false⟩, ⟨y, false⟩] = [⟨x, false⟩, ⟨y, false⟩] := by
    simp [allInputs, List.eraseDups_cons, h.symm]
  have hb : ((⟨x, false⟩ : Arg) == ⟨y, false⟩) = false := by simpa using h
  unfold callEdges
  simp only [List.append_nil, e]
  by_cases o1 : x ≤ y <;>
    simp [List.insertionSort, List.orderedInsert, o1, prevNodes, List.count_cons, h, h.symm,
      List.range_succ, List.idxOf_cons, hb]

theorem roles_qk {x y : ℕ} (h : x ≠ y) :
    prevNodes (callEdges [⟨x, false⟩, ⟨x, false⟩, ⟨y, false⟩] []) =
      if x < y then [x, x, y] else [x, y, x] := by
  have e : allInputs [⟨x, false⟩, ⟨x, false⟩, ⟨y, false⟩] = [⟨x, false⟩, ⟨y, false⟩] := by
    simp [allInputs, List.eraseDups_cons, h.symm]
  have hb : ((⟨x, false⟩ : Arg) == ⟨y, false⟩) = false := by simpa using h
  unfold callEdges
  simp only [List.append_nil, e]
  by_cases o1 : x ≤ y
  · rw [if_pos (by omega)]
    simp [List.insertionSort, List.orderedInsert, o1, prevNodes, List.count_cons, h, h.symm,
      List.range_succ, List.idxOf_cons, hb]
  · rw [if_neg (by omega)]
    simp [List.insertionSort, List.orderedInsert, o1, prevNodes, List.count_cons, h, h.symm,
      List.range_succ, List.idxOf_cons, hb]

theorem roles_qv {x y : ℕ} (h : x ≠ y) :
    prevNodes (callEdges [⟨x, false⟩, ⟨y, false⟩, ⟨x, false⟩] []) =
      if x < y then [x, x, y] else [x, y, x] := by
  have e : allInputs [⟨x, false⟩, ⟨y, false⟩, ⟨x, false⟩] = [⟨x, false⟩, ⟨y, false⟩] := by
    simp [allInputs, List.eraseDups_cons, h.symm]
  have hb : ((⟨x, false⟩ : Arg) == ⟨y, false⟩) = false := by simpa using h
  unfold callEdges
  simp only [List.append_nil, e]
  by_cases o1 : x ≤ y
  · rw [if_pos (by omega)]
    simp [List.insertionSort, List.orderedInsert, o1, prevNodes, List.count_cons, h, h.symm,
      List.range_succ, List.idxOf_cons, hb]
  · rw [if_neg (by omega)]
    simp [List.insertionSort, List.orderedInsert, o1, prevNodes, List.count_cons, h, h.symm,
      List.range_succ, List.idxOf_cons, hb]

/-- C109: three tensors of the model passed by position, with any constants among the other
arguments, reach the roles of query, key and value exactly if not: query and key are the
same and computed after the value, or query and value are the same and computed before the
key. -/
theorem C109_roles_iff {a b c : Arg} {mp mk : List Arg} (ha : a.const = false)
    (hb : b.const = false) (hc : c.const = false) (hp : ∀ a ∈ mp, a.const = true)
    (hk : ∀ a ∈ mk, a.const = true) :
    sdpaRoles ([a, b, c] ++ mp) mk = some (a.node, b.node, c.node) ↔
      ¬ (a.node = b.node ∧ c.node < a.node) ∧ ¬ (a.node = c.node ∧ a.node < b.node) := by
  obtain ⟨x, _⟩ := a
  obtain ⟨y, _⟩ := b
  obtain ⟨z, _⟩ := c
  simp only at ha hb hc
  subst ha hb hc
  unfold sdpaRoles
  rw [roles_const (by simp) hp hk]
  by_cases h1 : x = y
  · subst h1
    by_cases h2 : x = z
    · subst h2
      rw [roles_all]; simp
    · rw [roles_qk h2]
      by_cases h3 : x < z
      · rw [if_pos h3]; simp; omega
      · rw [if_neg h3]; simp; omega
  · by_cases h2 : x = z
    · subst h2
      rw [roles_qv h1]
      by_cases h3 : x < y
      · rw [if_pos h3]; simp; omega
      · rw [if_neg h3]; simp; omega
    · by_cases h3 : y = z
      · subst h3
        rw [roles_kv h1]; simp; omega
      · rw [roles_distinct h1 h2 h3]; simp; omega

theorem edges_length {a b c : Arg} (ha : a.const = false)
    (hb : b.const = false) (hc : c.const = false) :
    (prevNodes (callEdges [a, b, c] [])).length = 3 := by
  obtain ⟨x, _⟩ := a
  obtain ⟨y, _⟩ := b
  obtain ⟨z, _⟩ := c
  simp only at ha hb hc
  subst ha hb hc
  by_cases h1 : x = y
  · subst h1
    by_cases h2 : x = z
    · subst h2
      rw [roles_all]; rfl
    · rw [roles_qk h2]
      split <;> rfl
  · by_cases h2 : x = z
    · subst h2
      rw [roles_qv h1]
      split <;> rfl
    · by_cases h3 : y = z
      · subst h3
        rw [roles_kv h1]; rfl
      · rw [roles_distinct h1 h2 h3]; rfl

/-- C109: a call with three tensors of the model as query, key and value and possibly a
finite, non-boolean constant mask, without `is_causal`, is after the substitution scaled
dot-product attention of them; missing are a scale of zero and the two arrangements of
repeated tensors that `C109_roles_iff` excludes. -/
theorem C109_call_partial [Field K] [DecidableEq K] (rs : ℕ → K) (e : K → K)
    {shape : ℕ → List ℕ} {bad : ℕ → Bool} {val : ℕ → Tensor K} {a b c : Arg}
    {m : Option Arg} {byKeyword : Bool} {given : Option K} {call : SdpaCall K}
    {qs ks vs sb bs : List ℕ} {l s d ch : ℕ}
    (ha : a.const = false) (hb : b.const = false) (hc : c.const = false)
    (hm : ∀ u ∈ m, u.const = true ∧ bad u.node = false ∧
      BroadcastsTo (val u.node).shape (sb ++ [l, s]))
    (hpos : call.pos = [a, b, c] ++ (if byKeyword then [] else m.toList))
    (hkw : call.kw = if byKeyword then m.toList else [])
    (hcausal : call.isCausal = false)
    (hscale : call.scale = given.map some ∨ given = none ∧ call.scale = some none)
    (hzero : given ≠ some 0)
    (hr1 : ¬ (a.node = b.node ∧ c.node < a.node)) (hr2 : ¬ (a.node = c.node ∧ a.node < b.node))
    (hsh : ∀ n, (shape n).length = (val n).shape.length ∧
      (shape n).getLastD 0 = (val n).shape.getLastD 0)
    (hq : (val a.node).shape = qs ++ [l, d]) (hk : (val b.node).shape = ks ++ [s, d])
    (hv : (val c.node).shape = vs ++ [s, ch])
    (hb1 : bshape qs ks = some sb) (hb2 : bshape sb vs = some bs) :
    ∃ r, sdpaCall rs e shape bad val call = some r ∧ r.shape = bs ++ [l, ch] ∧
      ∀ p i j, p.length = bs.length →
        r.get (p ++ [i, j]) = sdpaSpec e (scaleSpec rs given d) d s qs ks sb vs
          (val a.node) (val b.node) (val c.node) (m.map fun u => val u.node) p i j := by
  obtain ⟨r, h1, h2, h3⟩ := C109_attention e (scaleSpec rs given d)
    (m := m.map fun u => val u.node) hq hk hv hb1 hb2 (by
      intro u hu
      rw [Option.mem_map] at hu
      obtain ⟨w, hw, rfl⟩ := hu
      exact (hm w hw).2.2)
  refine ⟨r, ?_, h2, h3⟩
  have hcp : ∀ u ∈ (if byKeyword then [] else m.toList), u.const = true := by
    intro u hu
    cases byKeyword
    · exact (hm u (by simpa using hu)).1
    · simp at hu
  have hck : ∀ u ∈ (if byKeyword then m.toList else []), u.const = true := by
    intro u hu
    cases byKeyword
    · simp at hu
    · exact (hm u (by simpa using hu)).1
  have hroles := (C109_roles_iff ha hb hc hcp hck).2 ⟨hr1, hr2⟩
  have hedges := roles_const (l := [a, b, c]) (by simp [ha, hb, hc]) hcp hck
  have hlen : (callEdges ([a, b, c] ++ if byKeyword then [] else m.toList)
      (if byKeyword then m.toList else [])).length = 3 := by
    rw [hedges]
    have := edges_length ha hb hc
    unfold prevNodes at this
    simpa using this
  have hmask : ((allInputs ([a, b, c] ++ (if byKeyword then [] else m.toList) ++
      (if byKeyword then m.toList else []))).find? fun a => a.const) = m := by
    have hmm : ([a, b, c] ++ (if byKeyword then [] else m.toList) ++
      (if byKeyword then m.toList else [])) = [a, b, c] ++ m.toList := by
      cases byKeyword <;> simp
    rw [hmm]
    unfold allInputs
    rw [List.eraseDups_append, List.find?_append, List.find?_eq_none.2, Option.none_or]
    · cases m with
      | none => simp
      | some u =>
        have hu := (hm u rfl).1
        have : [u].removeAll [a, b, c] = [u] := by
          have h1 : u ≠ a := fun e => by rw [e, ha] at hu; cases hu
          have h2 : u ≠ b := fun e => by rw [e, hb] at hu; cases hu
          have h3 : u ≠ c := fun e => by rw [e, hc] at hu; cases hu
          simp [List.removeAll, h1, h2, h3]
        simp [this, List.eraseDups_cons, hu]
    · intro u hu
      rw [List.mem_eraseDups] at hu
      simp only [List.mem_cons, List.not_mem_nil, or_false] at hu
      rcases hu with rfl | rfl | rfl <;> simp [*]
  have hfac : call.factor rs ((shape a.node).getLastD 0) = scaleSpec rs given d := by
    have hd : (shape a.node).getLastD 0 = d := by rw [(hsh a.node).2, hq]; simp
    rw [hd]
    unfold SdpaCall.factor scaleSpec
    rcases hscale with h | ⟨h, h'⟩
    · rw [h]
      cases given with
      | none => rfl
      | some g =>
        have : g ≠ 0 := fun e => hzero (by rw [e])
        simp [this]
    · rw [h, h']; rfl
  unfold sdpaCall
  rw [hpos, hkw, hroles, Option.bind_some]
  simp only
  rw [if_neg, hcausal, if_neg (by simp), hmask, if_neg, if_neg (by rw [hlen]; simp), hfac]
  · rw [Option.map_map]; exact h1
  · cases m with
    | none => simp
    | some u => simp [(hm u rfl).2.1]
  · rw [(hsh a.node).1, (hsh b.node).1, hq, hk]
    simp

/-- A call without options. -/
def plainCall (pos kw : List Arg) (scale : Option (Option ℚ)) : SdpaCall ℚ :=
  ⟨pos, kw, [], none, scale⟩

/-- Not vacuous: a call of rank four with key and value of one head, a constant mask by
keyword and a given scale. -/
example :
    let val : ℕ → Tensor ℚ := fun n =>
      if n = 3 then ⟨[1, 2, 1, 2], fun i => (flat [1, 2, 1, 2] i : ℚ)⟩
      else if n = 0 then ⟨[2, 2], fun i => (flat [2, 2] i : ℚ) + 5⟩
      else ⟨[1, 1, 2, 2], fun i => (flat [1, 1, 2, 2] i : ℚ) + n⟩
    let call : SdpaCall ℚ := plainCall [⟨3, false⟩, ⟨2, false⟩, ⟨1, false⟩] [⟨0, true⟩] (some (some 3))
    ((sdpaCall (fun d => 1 / (d : ℚ)) (fun x => 1 + x * x) (fun n => (val n).shape) (fun _ => false)
      val call).map fun r => r.get [0, 1, 0, 1]) = none ∧
    ((sdpaCall (fun d => 1 / (d : ℚ)) (fun x => 1 + x * x) (fun n => (val n).shape) (fun _ => false)
      (fun n => if n = 0 then ⟨[1, 2], fun i => (flat [1, 2] i : ℚ) + 5⟩ else val n) call).map
        fun r => (r.shape, r.get [0, 1, 0, 1])) =
      some ([1, 2, 1, 2], sdpaSpec (fun x => 1 + x * x) 3 2 2 [1, 2] [1, 1] [1, 2] [1, 1] (val 3)
        (val 2) (val 1) (some ⟨[1, 2], fun i => (flat [1, 2] i : ℚ) + 5⟩) [0, 1] 0 1) := by
  decide +kernel

/-- A matrix of one number. -/
def cell (x : ℚ) : Tensor ℚ := ⟨[1, 1, 1], fun _ => x⟩

/-- C109 fails when the query is also the value and is computed before the key: with one key
position attention is the value, 7; after the substitution it is the key, 9. -/
theorem C109_repeated_violated :
    sdpaSpec (fun _ => 1) 1 1 1 [1] [1] [1] [1] (cell 7) (cell 9) (cell 7) none [0] 0 0 = 7 ∧
      ((sdpaCall (fun _ => 1) (fun _ => 1) (fun _ => [1, 1, 1]) (fun _ => false)
        (fun n => if n = 0 then cell 7 else cell 9)
        (plainCall [⟨0, false⟩, ⟨1, false⟩, ⟨0, false⟩] [] none)).map
          fun r => r.get [0, 0, 0]) = some 9 := by
  decide +kernel

/-- C109 fails for a scale of zero, which should give the mean of the values: the default
scale is used instead. -/
theorem C109_zero_scale_violated :
    let val : ℕ → Tensor ℚ := fun n => ⟨[1, 2, 1], fun i => i.getD 1 0 + n⟩
    sdpaSpec (fun x => 1 + x * x) 0 1 2 [1] [1] [1] [1] (val 1) (val 2) (val 3) none [0] 0 0 = 7 / 2 ∧
      ((sdpaCall (fun _ => 1) (fun x => 1 + x * x) (fun _ => [1, 2, 1]) (fun _ => false) val
        (plainCall [⟨1, false⟩, ⟨2, false⟩, ⟨3, false⟩] [] (some (some 0)))).map
          fun r => r.get [0, 0, 0]) = some (11 / 3) := by
  decide +kernel

/-- C109 fails for tensors passed by keyword in another order, as in
`scaled_dot_product_attention(value=v, query=q, key=k)`: the roles follow the order in which
the keywords are written.  Attention is 5, the result is 6. -/
theorem C109_keyword_violated :
    sdpaSpec (fun _ => 1) 1 1 1 [1] [1] [1] [1] (cell 7) (cell 6) (cell 5) none [0] 0 0 = 5 ∧
      ((sdpaCall (fun _ => 1) (fun _ => 1) (fun _ => [1, 1, 1]) (fun _ => false)
        (fun n => cell (7 - n))
        (plainCall [] [⟨2, false⟩, ⟨0, false⟩, ⟨1, false⟩] none)).map
          fun r => r.get [0, 0, 0]) = some 6 := by
  decide +kernel

/-- C109 fails for self-attention with keywords: one tensor has one edge, so reading the key
fails. -/
theorem C109_self_keyword_violated [Field K] [DecidableEq K] (rs : ℕ → K) (e : K → K)
    (shape : ℕ → List ℕ) (bad : ℕ → Bool) (val : ℕ → Tensor K) (a : Arg) (l : List Bool)
    (b : Option Bool) (s : Option (Option K)) :
    sdpaCall rs e shape bad val ⟨[], [a, a, a], l, b, s⟩ = none := by
  have h : allInputs [a, a, a] = [a] := by simp [allInputs, List.eraseDups_cons]
  have : sdpaRoles [] [a, a, a] = none := by
    unfold sdpaRoles callEdges prevNodes
    simp only [List.nil_append, h]
    cases hc : a.const <;> simp [hc]
  unfold sdpaCall
  simp only [this, Option.bind_none]

/-- C109 fails for a constant query with a mask that the model computes: the key becomes the
query, the value the key, the mask the value, and the query is added as the mask.  Attention
is the value, 6; the result is the mask, 2. -/
theorem C109_constant_violated :
    sdpaSpec (fun _ => 1) 1 1 1 [1] [1] [1] [1] (cell 8) (cell 7) (cell 6) (some (cell 2)) [0] 0 0
        = 6 ∧
      ((sdpaCall (fun _ => 1) (fun _ => 1) (fun _ => [1, 1, 1]) (fun _ => false)
        (fun n => if n = 3 then cell 2 else cell (8 - n))
        (plainCall [⟨0, true⟩, ⟨1, false⟩, ⟨2, false⟩, ⟨3, false⟩] [] none)).map
          fun r => r.get [0, 0, 0]) = some 2 := by
  decide +kernel

/-- C109: a mask that the model computes, beside three tensors of the model, is rejected, not
dropped. -/
theorem C109_mask_tensor [Field K] [DecidableEq K] (rs : ℕ → K) (e : K → K)
    (shape : ℕ → List ℕ) (bad : ℕ → Bool) (val : ℕ → Tensor K) {call : SdpaCall K}
    (hd : (call.pos ++ call.kw).Nodup) (hn : ∀ a ∈ call.pos ++ call.kw, a.const = false)
    (h4 : 3 < (call.pos ++ call.kw).length) :
    sdpaCall rs e shape bad val call = none := by
  have hall : allInputs (call.pos ++ call.kw) = call.pos ++ call.kw := eraseDups_nodup hd
  have hlen : 3 < (callEdges call.pos call.kw).length := by
    unfold callEdges
    simp only [hall]
    rw [List.filter_eq_self.2 (by intro a ha; simp [hn a ha]), List.length_flatMap]
    have h1 : ∀ l : List Arg, l.length ≤ (l.map fun a => ((List.range (max (call.pos.count a) 1)).map
        fun r => (a.node, (call.pos ++ call.kw).idxOf a + r)).length).sum := by
      intro l
      induction l with
      | nil => simp
      | cons a l ih =>
        simp only [List.map_cons, List.sum_cons, List.length_cons, List.length_map,
          List.length_range] at ih ⊢
        have : 1 ≤ max (call.pos.count a) 1 := le_max_right _ _
        omega
    have := h1 ((call.pos ++ call.kw).insertionSort fun a b => a.node ≤ b.node)
    rw [List.length_insertionSort] at this
    exact lt_of_lt_of_le h4 this
  unfold sdpaCall
  cases sdpaRoles call.pos call.kw with
  | none => rfl
  | some r =>
    rw [Option.bind_some]
    simp only
    rw [if_pos (show (callEdges call.pos call.kw).length ≠ 3 by omega)]
    split_ifs <;> rfl

/-- C109: a causal call, and a boolean or infinite constant mask, are rejected. -/
theorem C109_rejects [Field K] [DecidableEq K] (rs : ℕ → K) (e : K → K)
    (shape : ℕ → List ℕ) (bad : ℕ → Bool) (val : ℕ → Tensor K) (call : SdpaCall K)
    (h : call.causal = some true ∨ (call.causal = none ∧ call.callArgs.getD 2 false = true) ∨
      (∃ m ∈ call.pos ++ call.kw, m.const = true ∧ bad m.node = true ∧
        ∀ a ∈ call.pos ++ call.kw, a.const = true → a = m)) :
    sdpaCall rs e shape bad val call = none := by
  unfold sdpaCall
  cases sdpaRoles call.pos call.kw with
  | none => rfl
  | some r =>
    rw [Option.bind_some]
    simp only
    split_ifs with h1 h2 h3 h4
    · rfl
    · rfl
    · rfl
    · rfl
    · exfalso
      rcases h with h | ⟨h, h'⟩ | ⟨m, hm, hc, hb, hu⟩
      · exact h2 (by unfold SdpaCall.isCausal; rw [h])
      · exact h2 (by unfold SdpaCall.isCausal; rw [h]; exact h')
      · apply h3
        have hmem : m ∈ allInputs (call.pos ++ call.kw) := List.mem_eraseDups.2 hm
        cases hf : (allInputs (call.pos ++ call.kw)).find? fun a => a.const with
        | none => exact absurd hc (by simpa using List.find?_eq_none.1 hf m hmem)
        | some u =>
          have h5 : u = m := hu u (List.mem_eraseDups.1 (List.mem_of_find?_eq_some hf))
            (by simpa using List.find?_some hf)
          simp [h5, hb]

end MCT.Decomp
