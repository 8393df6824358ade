/- Theorems about requests for Hessian scores. -/
import Verif.Hessian.Service

namespace MCT.Hessian
open HessianSpec

set_option linter.unusedVariables false
set_option linter.unusedSectionVars false

variable {N S V : Type} [DecidableEq N] (score : ℕ → Query N → List S → List V)

/-- A request from the cache, taken apart. -/
theorem fetch_cases {nodes : List (HNode N)} {r : Req N S} {n : ℕ} (hn : r.n = some n) {st st' : St N S V}
    {res : List (N × List V)} (h : fetch score nodes false r st = (st', some res)) :
    ∃ prims res', r.targets.mapM (primary nodes) = some prims ∧
      fetchWithCompute score r.mode r.gran (prims.map (·.name)) n r.loader st = (st', some res') ∧
      restoreNames r.targets prims res' = some res := by
  unfold fetch at h
  split_ifs at h with h1 h2
  · simp at h
  · simp at h
  · cases hp : r.targets.mapM (primary nodes) with
    | none => rw [hp] at h; simp at h
    | some prims =>
      rw [hp] at h
      simp only [answer, Bool.false_eq_true, if_false, hn, Option.getD_some] at h
      rcases hr : fetchWithCompute score r.mode r.gran (prims.map (·.name)) n r.loader st with ⟨s1, r1⟩
      rw [hr] at h
      cases r1 with
      | none => simp at h
      | some res' =>
        simp only [Prod.mk.injEq] at h
        obtain ⟨rfl, h⟩ := h
        exact ⟨prims, res', rfl, hr, h⟩

/-- **C94** after any history of requests (with or without success) and clearings, a successful request for `n`
samples answers, for every requested layer, with exactly `n` rows: the first `n` rows computed for the layer (or
the layer it reuses) since the cache was last cleared. -/
theorem C94_fetch (nodes : List (HNode N)) (ops : List (Op N S)) (r : Req N S) (n : ℕ) (hn : r.n = some n)
    (st' : St N S V) (res : List (N × List V))
    (h : fetch score nodes false r (run score nodes St.empty ops) = (st', some res)) :
    List.Forall₂ (fun x e => ∃ p, primary nodes x = some p ∧ e.1 = x.name ∧
        e.2 = (recorded score st'.log ⟨r.mode, r.gran, p.name⟩).take n ∧ e.2.length = n) r.targets res := by
  obtain ⟨prims, res', hp, hf, hz⟩ := fetch_cases score hn h
  obtain ⟨hi', rfl, hlen⟩ := fetchWithCompute_some score (run_inv score nodes ops _ (inv_empty score)) _ _ _ _ _ _ _ hf
  obtain ⟨h1, h2⟩ := restore nodes r.targets prims hp
    (fun x => (recorded score st'.log ⟨r.mode, r.gran, x⟩).take n)
  rw [h1] at hz
  simp only [Option.some.injEq] at hz
  subst hz
  refine (forall₂_zip h2 _).imp ?_
  rintro x e ⟨p, hpx, hpm, rfl⟩
  refine ⟨p, hpx, rfl, rfl, ?_⟩
  have := (hlen p.name (List.mem_map_of_mem hpm)).1
  simp only [List.length_take]
  omega

/-- A request for layers that all have enough rows is answered from the cache, with any data loader or none. -/
theorem fetch_cached {nodes : List (HNode N)} {st : St N S V} (hi : Inv score st) {r : Req N S} {n : ℕ}
    (hn : r.n = some n) {prims : List (HNode N)} (hp : r.targets.mapM (primary nodes) = some prims)
    (hc : ∀ p ∈ prims, n ≤ (recorded score st.log ⟨r.mode, r.gran, p.name⟩).length ∧
      ∃ e ∈ st.log, e.1 = ⟨r.mode, r.gran, p.name⟩) :
    fetch score nodes false r st = (st, some ((List.zip r.targets prims).map
      (fun p => (p.1.name, (recorded score st.log ⟨r.mode, r.gran, p.2.name⟩).take n)))) := by
  unfold fetch
  rw [if_neg (by simp [hn]), if_neg (by simp [hn]), hp]
  simp only [answer, Bool.false_eq_true, if_false, hn, Option.getD_some]
  have hm : (missing st r.mode r.gran (prims.map (·.name)) n).isEmpty = true := by
    rw [List.isEmpty_iff, List.eq_nil_iff_forall_not_mem]
    intro x hx
    rw [mem_missing score hi] at hx
    obtain ⟨hx, h⟩ := hx
    obtain ⟨p, hpm, rfl⟩ := List.mem_map.mp hx
    obtain ⟨h1, h2⟩ := hc p hpm
    rcases h with h | h
    · exact h h2
    · omega
  have hf : fetchWithCompute score r.mode r.gran (prims.map (·.name)) n r.loader st =
      (st, some (cached st r.mode r.gran (prims.map (·.name)) n)) := by
    unfold fetchWithCompute; rw [if_pos hm]
  rw [hf, (cached_of_not_missing score hi _ _ _ _ hm).1]
  simp only
  rw [(restore nodes r.targets prims hp (fun x => (recorded score st.log ⟨r.mode, r.gran, x⟩).take n)).1]

/-- **C94** a request is answered alike for ever: after a successful request, whatever other requests are made,
a later request for the same layers and at most as many samples needs no data, changes nothing and answers with
the first rows of the former answer. -/
theorem C94_consistent (nodes : List (HNode N)) (ops ops' : List (Op N S)) (r r' : Req N S) (n n' : ℕ)
    (hn : r.n = some n) (hn' : r'.n = some n') (hle : n' ≤ n)
    (hm : r'.mode = r.mode) (hg : r'.gran = r.gran) (ht : r'.targets = r.targets)
    (hc : ∀ o ∈ ops', ∃ force r, o = Op.fetch force r)
    (st' : St N S V) (res : List (N × List V))
    (h : fetch score nodes false r (run score nodes St.empty ops) = (st', some res)) :
    fetch score nodes false r' (run score nodes st' ops') =
      (run score nodes st' ops', some (res.map (fun e => (e.1, e.2.take n')))) := by
  obtain ⟨prims, res', hp, hf, hz⟩ := fetch_cases score hn h
  obtain ⟨hi', rfl, hlen⟩ := fetchWithCompute_some score (run_inv score nodes ops _ (inv_empty score)) _ _ _ _ _ _ _ hf
  rw [(restore nodes r.targets prims hp (fun x => (recorded score st'.log ⟨r.mode, r.gran, x⟩).take n)).1] at hz
  simp only [Option.some.injEq] at hz
  subst hz
  obtain ⟨new, hlog⟩ := run_log score nodes ops' st' hc
  have hrec : ∀ p ∈ prims, n ≤ (recorded score st'.log ⟨r.mode, r.gran, p.name⟩).length ∧
      ∃ e ∈ st'.log, e.1 = ⟨r.mode, r.gran, p.name⟩ := fun p hp => hlen p.name (List.mem_map_of_mem hp)
  rw [fetch_cached score (run_inv score nodes ops' st' hi') hn' (prims := prims) (by rw [ht]; exact hp)]
  · rw [List.map_map, ht]
    congr 2
    apply List.map_congr_left
    intro p hpz
    have hpm := (List.of_mem_zip hpz).2
    have := (hrec p.2 hpm).1
    simp only [Function.comp, hlog, recorded_append, hm, hg, Prod.mk.injEq, true_and]
    rw [List.take_append_of_le_length (by omega), List.take_take, Nat.min_eq_left hle]
  · intro p hpm
    obtain ⟨h1, e, he, h2⟩ := hrec p hpm
    rw [hlog, recorded_append, hm, hg, List.length_append]
    exact ⟨by omega, e, List.mem_append_left _ he, h2⟩

theorem compute_fst (m : Mode) (g : Gran) (names : List N) (n : Option ℕ) (byCache : Bool)
    (bs : List (List S)) (st : St N S V) :
    (compute score m g names n byCache (some bs) st).1 =
      (computeLoop score m g names n byCache bs st 0 []).1 := by
  unfold compute
  simp only
  rcases computeLoop score m g names n byCache bs st 0 [] with ⟨s, _ | ⟨c, acc⟩⟩
  · rfl
  · simp only
    split_ifs <;> rfl

theorem fetchWithCompute_fst (m : Mode) (g : Gran) (names : List N) (n : ℕ) (bs : List (List S)) (st : St N S V) :
    (fetchWithCompute score m g names n (some bs) st).1 =
      if (missing st m g names n).isEmpty then st
      else (computeLoop score m g (todo st m g names n) (some n) true bs st 0 []).1 := by
  unfold fetchWithCompute
  by_cases h1 : (missing st m g names n).isEmpty = true
  · rw [if_pos h1, if_pos h1]
  · rw [if_neg h1, if_neg h1, if_neg (by simp), ← compute_fst]
    rcases compute score m g (todo st m g names n) (some n) true (some bs) st with ⟨s, _ | r⟩
    · rfl
    · simp only; split_ifs <;> rfl

theorem fetch_fst {nodes : List (HNode N)} {r : Req N S} {n : ℕ} (hn : r.n = some n) (st : St N S V) :
    (fetch score nodes false r st).1 = match r.targets.mapM (primary nodes) with
      | none => st
      | some prims => (fetchWithCompute score r.mode r.gran (prims.map (·.name)) n r.loader st).1 := by
  unfold fetch
  rw [if_neg (by simp [hn]), if_neg (by simp [hn])]
  cases r.targets.mapM (primary nodes) with
  | none => rfl
  | some prims =>
    simp only [answer, Bool.false_eq_true, if_false, hn, Option.getD_some]
    generalize fetchWithCompute score r.mode r.gran (prims.map (·.name)) n r.loader st = a
    obtain ⟨s, _ | r⟩ := a <;> rfl

/-- **C94** nothing is computed that is not needed: a request computes only layers (reused ones stand for the
layer they reuse) that lack rows, and if it computes anything, then without the last batch one of them would
still lack rows. -/
theorem C94_needed (hs : ∀ t q b, (score t q b).length = b.length) (nodes : List (HNode N)) (ops : List (Op N S))
    (r : Req N S) (n : ℕ) (hn : r.n = some n) (h0 : 0 < n) (bs : List (List S)) (hl : r.loader = some bs)
    (ht : r.targets ≠ []) :
    ∃ (k : ℕ) (names : List N), k ≤ bs.length ∧
      (∀ q, recorded score (fetch score nodes false r (run score nodes St.empty ops)).1.log q =
        recorded score (run score nodes St.empty ops).log q ++
          if q.mode = r.mode ∧ q.gran = r.gran ∧ q.node ∈ names then
            rowsFrom score (run score nodes St.empty ops).tick q (bs.take k) else []) ∧
      (∀ y ∈ names, ∃ x ∈ r.targets, ∃ p, primary nodes x = some p ∧ p.name = y ∧
        (recorded score (run score nodes St.empty ops).log ⟨r.mode, r.gran, y⟩).length < n) ∧
      (0 < k → ∃ y ∈ names, (recorded score (run score nodes St.empty ops).log ⟨r.mode, r.gran, y⟩).length +
        (bs.take (k - 1)).flatten.length < n) := by
  have hi := run_inv score nodes ops (St.empty : St N S V) (inv_empty score)
  generalize run score nodes St.empty ops = st at hi
  have hnone : ∀ (st' : St N S V), st' = st → ∃ (k : ℕ) (names : List N), k ≤ bs.length ∧
      (∀ q, recorded score st'.log q =
        recorded score st.log q ++
          if q.mode = r.mode ∧ q.gran = r.gran ∧ q.node ∈ names then
            rowsFrom score st.tick q (bs.take k) else []) ∧
      (∀ y ∈ names, ∃ x ∈ r.targets, ∃ p, primary nodes x = some p ∧ p.name = y ∧
        (recorded score st.log ⟨r.mode, r.gran, y⟩).length < n) ∧
      (0 < k → ∃ y ∈ names, (recorded score st.log ⟨r.mode, r.gran, y⟩).length +
        (bs.take (k - 1)).flatten.length < n) := by
    rintro st' rfl
    exact ⟨0, [], by simp, by intro q; simp, by simp, by simp⟩
  rw [fetch_fst score hn]
  cases hp : r.targets.mapM (primary nodes) with
  | none => exact hnone _ rfl
  | some prims =>
    simp only
    rw [hl, fetchWithCompute_fst]
    split_ifs with h1
    · exact hnone _ rfl
    · -- the layers to compute lack rows
      have htodo : ∀ y ∈ todo st r.mode r.gran (prims.map (·.name)) n,
          y ∈ missing st r.mode r.gran (prims.map (·.name)) n := by
        intro y hy
        unfold todo at hy
        split_ifs at hy with hc
        · rw [List.isEmpty_iff] at hc
          unfold cached at hc
          rw [List.filterMap_eq_nil_iff] at hc
          have := hc y hy
          rw [Option.map_eq_none_iff] at this
          unfold missing
          rw [List.mem_filter, this]
          exact ⟨hy, rfl⟩
        · simpa using (List.mem_filter.mp hy).2
      have hne : todo st r.mode r.gran (prims.map (·.name)) n ≠ [] := by
        unfold todo
        split_ifs with hc
        · intro he
          rw [he] at h1
          simp [missing] at h1
        · intro he
          rw [List.filter_eq_nil_iff] at he
          apply h1
          rw [List.isEmpty_iff, List.eq_nil_iff_forall_not_mem]
          intro x hx
          have hx' := hx
          unfold missing at hx'
          exact he x (List.mem_filter.mp hx').1 (by simpa using hx)
      have hlack : ∀ y ∈ todo st r.mode r.gran (prims.map (·.name)) n,
          (recorded score st.log ⟨r.mode, r.gran, y⟩).length < n := by
        intro y hy
        have := (mem_missing score hi _ _ _ _ _).mp (htodo y hy)
        rcases this.2 with h | h
        · have h3 := (hi ⟨r.mode, r.gran, y⟩).2
          have h4 : ¬ (st.cache ⟨r.mode, r.gran, y⟩).isSome = true := fun hh => h (h3.mp hh)
          rw [← (hi ⟨r.mode, r.gran, y⟩).1]
          cases hcc : st.cache ⟨r.mode, r.gran, y⟩ with
          | none => simpa using h0
          | some v => rw [hcc] at h4; simp at h4
        · exact h
      generalize hnm : todo st r.mode r.gran (prims.map (·.name)) n = names' at htodo hne hlack
      have hst : ∃ k, k ≤ bs.length ∧ (computeLoop score r.mode r.gran names' (some n) true bs st 0 []).1 =
            advance score r.mode r.gran names' (bs.take k) st ∧
          (0 < k → ∃ y ∈ names', (recorded score st.log ⟨r.mode, r.gran, y⟩).length +
            (bs.take (k - 1)).flatten.length < n) := by
        obtain ⟨k, c', acc', hk, hloop, _, _, _, _, hj⟩ :=
          computeLoop_spec score r.mode r.gran names' hne (some n) true bs st 0 []
        refine ⟨k, hk, ?_, ?_⟩
        · rw [hloop]
        · intro hkp
          by_cases hk1 : k = 1
          · subst hk1
            obtain ⟨y, hy⟩ := List.exists_mem_of_ne_nil _ hne
            exact ⟨y, hy, by simpa using hlack y hy⟩
          · rcases hj (k - 1) (by omega) (by omega) with h | h
            · simp at h; omega
            · simp only [if_true, Option.getD_some] at h
              obtain ⟨c, hc⟩ := minCount_isSome (advance score r.mode r.gran names' (bs.take (k - 1)) st)
                r.mode r.gran names' hne
              obtain ⟨_, y, hy, he⟩ := minCount_spec _ _ _ _ _ hc
              refine ⟨y, hy, ?_⟩
              rw [hc, Option.getD_some, he, count_eq, advance_getD, if_pos ⟨rfl, rfl, hy⟩, (hi _).1,
                List.length_append, rowsFrom_length score hs] at h
              exact h
      obtain ⟨k, hk, hst, hlast⟩ := hst
      refine ⟨k, names', hk, ?_, ?_, hlast⟩
      · intro q
        rw [hst]
        obtain ⟨new, h1, h2, _⟩ := advance_log score r.mode r.gran names' (bs.take k) st
        rw [h1, recorded_append, h2]
        rfl
      · intro y hy
        have := (mem_missing score hi _ _ _ _ _).mp (htodo y hy)
        obtain ⟨p, hpm, hpy⟩ := List.mem_map.mp this.1
        have h2 := (restore nodes r.targets prims hp (fun x => ([] : List V))).2
        obtain ⟨x, hx, hxp⟩ : ∃ x ∈ r.targets, primary nodes x = some p := by
          generalize r.targets = ts at h2
          clear * - h2 hpm
          induction h2 with
          | nil => simp at hpm
          | cons hab _ ih =>
            rcases List.mem_cons.mp hpm with rfl | hpm
            · exact ⟨_, by simp, hab⟩
            · obtain ⟨x, hx, h⟩ := ih hpm
              exact ⟨x, by simp [hx], h⟩
        exact ⟨x, hx, p, hxp, hpy, hlack y hy⟩

/-! ### A concrete service -/

/-- Two layers and a reuse of the first. -/
def nodesW : List (HNode ℕ) := [⟨0, false, some 7⟩, ⟨1, false, none⟩, ⟨2, true, some 7⟩]

/-- A score that only shows the layer and the sample. -/
def scoreW : ℕ → Query ℕ → List ℕ → List (ℕ × ℕ) := fun _ q b => b.map (fun s => (q.node, s))

/-- A request for activations, per tensor. -/
def reqW (targets : List (HNode ℕ)) (loader : List (List ℕ)) (n : ℕ) : Req ℕ ℕ :=
  ⟨.activation, .perTensor, targets, some loader, some n⟩

example : (fetch scoreW nodesW false (reqW nodesW [[10, 11], [12]] 3)
      (run scoreW nodesW St.empty [.fetch false (reqW nodesW [[5]] 1), .clear])).2 =
    some [(0, [(0, 10), (0, 11), (0, 12)]), (1, [(1, 10), (1, 11), (1, 12)]), (2, [(0, 10), (0, 11), (0, 12)])] := by
  decide +kernel

example : (fetch scoreW nodesW false ⟨.activation, .perTensor, nodesW, none, some 2⟩
      (fetch scoreW nodesW false (reqW nodesW [[10, 11], [12]] 3) St.empty).1).2 =
    some [(0, [(0, 10), (0, 11)]), (1, [(1, 10), (1, 11)]), (2, [(0, 10), (0, 11)])] := by decide +kernel

/-- **C94** the layer whose scores answer for `x`: `x` itself unless it is reused, else the only layer of its group
that is not reused; there is none when the group has none or several. -/
theorem C94_primary (nodes : List (HNode N)) (hn : nodes.Nodup) (x p : HNode N) :
    primary nodes x = some p ↔ (x.reuse = false ∧ p = x) ∨
      (x.reuse = true ∧ p ∈ nodes ∧ p.reuse = false ∧ p.group = x.group ∧
        ∀ y ∈ nodes, y.reuse = false → y.group = x.group → y = p) := by
  unfold primary
  by_cases hx : x.reuse = false
  · rw [if_pos hx]
    simp only [Option.some.injEq, hx, Bool.false_eq_true, false_and, or_false, true_and]
    exact eq_comm
  · rw [if_neg hx]
    have hx' : x.reuse = true := by simpa using hx
    generalize hl : nodes.filter (fun y => !y.reuse && y.group == x.group) = l
    have hmem : ∀ y, y ∈ l ↔ y ∈ nodes ∧ y.reuse = false ∧ y.group = x.group := by
      intro y
      rw [← hl, List.mem_filter]
      simp
    have hnd : l.Nodup := by rw [← hl]; exact hn.filter _
    constructor
    · intro h
      right
      split at h
      · rename_i y
        simp only [Option.some.injEq] at h
        subst h
        have := (hmem y).mp (by simp)
        refine ⟨hx', this.1, this.2.1, this.2.2, fun z hz h1 h2 => ?_⟩
        have := (hmem z).mpr ⟨hz, h1, h2⟩
        simpa using this
      · simp at h
    · rintro (h | ⟨_, h1, h2, h3, h4⟩)
      · exact absurd h.1 hx
      · have hp : p ∈ l := (hmem p).mpr ⟨h1, h2, h3⟩
        have : l = [p] := by
          have hall : ∀ y ∈ l, y = p := fun y hy => h4 y ((hmem y).mp hy).1 ((hmem y).mp hy).2.1 ((hmem y).mp hy).2.2
          rw [List.eq_replicate_of_mem hall] at hnd hp ⊢
          generalize l.length = k at *
          match k with
          | 0 => simp at hp
          | 1 => rfl
          | k + 2 => simp [List.replicate_succ] at hnd
        rw [this]

example : primary nodesW ⟨2, true, some 7⟩ = some ⟨0, false, some 7⟩ := by decide +kernel

/-- **C94** a request that names no number of samples is refused without being computed, unless it is forced. -/
theorem C94_number_required (nodes : List (HNode N)) (r : Req N S) (hr : r.n = none) (st : St N S V) :
    fetch score nodes false r st = (st, none) := by
  unfold fetch
  by_cases hl : r.loader.isNone
  · rw [if_pos (by simp [hl, hr])]
  · rw [if_neg (by simp [hl]), if_pos (by simp [hr])]

end MCT.Hessian
