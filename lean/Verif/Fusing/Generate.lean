/-
C39: the fused operations that are generated; and what a graph accepts.
-/
import Verif.Fusing.Lemmas

namespace MCT.Fusing
open MCT.Graph MCT.GraphSpec MCT.FusingSpec

set_option linter.unusedSectionVars false
set_option linter.unusedVariables false
set_option linter.unusedSimpArgs false

variable {N P C : Type} [DecidableEq N] [DecidableEq C]

/-- What holds after the nodes in `pre` were visited. -/
structure Found (S : Setup N P) (g : Gr N) (ps : List (List P)) (pre : List N)
    (st : Dict (List N) × List N) : Prop where
  ops : ∀ id w, (id, w) ∈ st.1 → id = fusedId S w ∧ 2 ≤ w.length ∧ OnlyWay g w ∧
    (∃ p ∈ ps, Fits S p w) ∧ ∃ n ∈ pre, w.head? = some n ∧ w = collect S g (maxLen ps) 0 ps n
  fused : ∀ n, n ∈ st.2 ↔ ∃ id w, (id, w) ∈ st.1 ∧ n ∈ w
  keys : (st.1.map Prod.fst).Nodup
  visited : ∀ n ∈ pre, n ∉ st.2 →
    isValidFusion S ps (collect S g (maxLen ps) 0 ps n) [] = false

theorem genStep_found {S : Setup N P} {g : Gr N} {ps : List (List P)} {pre : List N}
    {st st' : Dict (List N) × List N} {n : N} (F : Found S g ps pre st)
    (h : genStep S g ps st n = some st') : Found S g ps (pre ++ [n]) st' := by
  rw [genStep] at h
  split at h
  · rename_i hn
    obtain rfl : st = st' := by simpa using h
    refine ⟨?_, F.fused, F.keys, ?_⟩
    · intro id w hw
      obtain ⟨h1, h2, h3, h4, m, hm, h5⟩ := F.ops id w hw
      exact ⟨h1, h2, h3, h4, m, List.mem_append_left _ hm, h5⟩
    · intro m hm hn'
      rcases List.mem_append.1 hm with hm | hm
      · exact F.visited m hm hn'
      · obtain rfl := List.mem_singleton.1 hm
        exact absurd hn hn'
  · rename_i hn
    simp only at h
    split at h
    · rename_i hv
      split at h
      · simp at h
      · rename_i hk
        obtain rfl : _ = st' := by simpa using h
        obtain ⟨h2, hp⟩ := by
          simpa using (isValid_iff S ps _ []).1 hv
        have hc := collect_only S g (maxLen ps) 0 ps n
        have hhead : (collect S g (maxLen ps) 0 ps n).head? = some n := by
          rcases hc.2 with h | h
          · rw [h] at h2; simp at h2
          · exact h
        have hnk : fusedId S (collect S g (maxLen ps) 0 ps n) ∉ st.1.map Prod.fst := by
          apply Dict.get_none.1
          simpa [Dict.has] using hk
        refine ⟨?_, ?_, ?_, ?_⟩
        · intro id w hw
          rcases List.mem_append.1 hw with hw | hw
          · obtain ⟨h1, h2, h3, h4, m, hm, h5⟩ := F.ops id w hw
            exact ⟨h1, h2, h3, h4, m, List.mem_append_left _ hm, h5⟩
          · obtain ⟨rfl, rfl⟩ : id = _ ∧ w = _ := by simpa using hw
            exact ⟨rfl, h2, hc.1, hp, n, by simp, hhead, rfl⟩
        · intro m
          simp only [List.mem_append, F.fused, List.mem_singleton, Prod.mk.injEq]
          constructor
          · rintro (⟨id, w, h1, h2⟩ | h1)
            · exact ⟨id, w, Or.inl h1, h2⟩
            · exact ⟨_, _, Or.inr ⟨rfl, rfl⟩, h1⟩
          · rintro ⟨id, w, h1 | ⟨rfl, rfl⟩, h2⟩
            · exact Or.inl ⟨id, w, h1, h2⟩
            · exact Or.inr h2
        · rw [List.map_append, List.nodup_append]
          refine ⟨F.keys, by simp, ?_⟩
          intro a ha b hb
          obtain rfl : b = _ := by simpa using hb
          rintro rfl
          exact hnk ha
        · intro m hm hn'
          simp only [List.mem_append, not_or] at hn'
          rcases List.mem_append.1 hm with hm | hm
          · exact F.visited m hm hn'.1
          · obtain rfl := List.mem_singleton.1 hm
            exact absurd (List.mem_of_mem_head? hhead) hn'.2
    · rename_i hv
      obtain rfl : st = st' := by simpa using h
      refine ⟨?_, F.fused, F.keys, ?_⟩
      · intro id w hw
        obtain ⟨h1, h2, h3, h4, m, hm, h5⟩ := F.ops id w hw
        exact ⟨h1, h2, h3, h4, m, List.mem_append_left _ hm, h5⟩
      · intro m hm hn'
        rcases List.mem_append.1 hm with hm | hm
        · exact F.visited m hm hn'
        · obtain rfl := List.mem_singleton.1 hm
          simpa using hv

theorem fold_found {S : Setup N P} {g : Gr N} {ps : List (List P)} (I : List N → Dict (List N) × List N → Prop)
    (hI : ∀ pre st n st', Found S g ps pre st → I pre st → genStep S g ps st n = some st' → I (pre ++ [n]) st') :
    ∀ (rest pre : List N) (st st' : Dict (List N) × List N), Found S g ps pre st → I pre st →
      rest.foldlM (genStep S g ps) st = some st' → Found S g ps (pre ++ rest) st' ∧ I (pre ++ rest) st'
  | [], pre, st, st', F, i, h => by
      obtain rfl : st = st' := by simpa using h
      simpa using ⟨F, i⟩
  | n :: rest, pre, st, st', F, i, h => by
      rw [List.foldlM_cons] at h
      obtain ⟨st1, h1, h2⟩ := Option.bind_eq_some_iff.1 h
      have := fold_found I hI rest (pre ++ [n]) st1 st' (genStep_found F h1) (hI pre st n st1 F i h1) h2
      simpa using this

theorem found_nil (S : Setup N P) (g : Gr N) (ps : List (List P)) : Found S g ps [] ([], []) :=
  ⟨by simp, by simp, by simp, by simp⟩

theorem setCfg_data (S : Setup N P) (info : Info N P C) (id : Name) (w : List N) :
    (setCfg S info id w).data = info.data ∧ (setCfg S info id w).map = info.map ∧
      (setCfg S info id w).patterns = info.patterns ∧ (setCfg S info id w).manual = info.manual := by
  rw [setCfg]; split <;> exact ⟨rfl, rfl, rfl, rfl⟩

theorem setCfgs_data (S : Setup N P) (l : Dict (List N)) (info : Info N P C) :
    (l.foldl (fun i p => setCfg S i p.1 p.2) info).data = info.data ∧
      (l.foldl (fun i p => setCfg S i p.1 p.2) info).map = info.map ∧
      (l.foldl (fun i p => setCfg S i p.1 p.2) info).patterns = info.patterns ∧
      (l.foldl (fun i p => setCfg S i p.1 p.2) info).manual = info.manual := by
  induction l generalizing info with
  | nil => exact ⟨rfl, rfl, rfl, rfl⟩
  | cons p l ih =>
    rw [List.foldl_cons]
    obtain ⟨a, b, c, d⟩ := ih (setCfg S info p.1 p.2)
    obtain ⟨a', b', c', d'⟩ := setCfg_data S info p.1 p.2
    exact ⟨a.trans a', b.trans b', c.trans c', d.trans d'⟩

theorem mkInfo_data {S : Setup N P} {ps : List (Pattern P C)} {manual : List (List Name)}
    {data : Dict (List N)} {info : Info N P C} (h : mkInfo S ps manual data = some info) :
    info.data = data ∧ info.patterns = ps ∧ info.manual = manual ∧
      info.map = data.foldl (fun m p => mapNodes S m p.1 p.2) [] := by
  rw [mkInfo] at h
  split at h
  · obtain rfl : _ = info := by simpa using h
    obtain ⟨a, b, c, d⟩ := setCfgs_data S data (⟨ps, manual, data,
      data.foldl (fun m p => mapNodes S m p.1 p.2) [], []⟩ : Info N P C)
    exact ⟨a, c, d, b⟩
  · simp at h

/-- The state the generator ends in, when there are no manual operations. -/
theorem generate_found {S : Setup N P} {g : Gr N} {order : List N} {ps : List (Pattern P C)}
    {info : Info N P C} (h : generate S g order ps [] = some info)
    (I : List N → Dict (List N) × List N → Prop) (h0 : I [] ([], []))
    (hI : ∀ pre st n st', Found S g (ps.map Pattern.layers) pre st → I pre st →
      genStep S g (ps.map Pattern.layers) st n = some st' → I (pre ++ [n]) st') :
    info.data = [] ∧ ps = [] ∨
      ∃ st, info.data = st.1 ∧ Found S g (ps.map Pattern.layers) order st ∧ I order st := by
  rw [generate] at h
  split at h
  · rename_i hp
    exact Or.inl ⟨(mkInfo_data h).1, by simpa using hp⟩
  · obtain ⟨st, h1, h2⟩ := Option.bind_eq_some_iff.1 h
    obtain ⟨d, h3, h4⟩ := Option.bind_eq_some_iff.1 h2
    obtain rfl : st.1 = d := by simpa using h3
    have := fold_found I hI order [] ([], []) st (found_nil S g _) h0 h1
    exact Or.inr ⟨st, (mkInfo_data h4).1, by simpa using this⟩

/-- **C39** (generated operations are chains that match a pattern; that they are disjoint is
`C39_disjoint_partial`): on every graph and for every list of patterns, each generated operation has at
least two layers, all in the graph, each but the last leading only to the next, and matches one of the
patterns. Identifiers are used once. -/
theorem C39_chains_partial {S : Setup N P} {g : Gr N} {order : List N} {ps : List (Pattern P C)}
    {info : Info N P C} (ht : TopoOrder g order) (hd : ∀ e ∈ g.edges, e.dst ∈ g.nodes)
    (h : generate S g order ps [] = some info) :
    (info.data.map Prod.fst).Nodup ∧ ∀ id w, (id, w) ∈ info.data →
      2 ≤ w.length ∧ (∀ n ∈ w, n ∈ g.nodes) ∧ OnlyWay g w ∧ ∃ p ∈ ps, Fits S p.layers w := by
  rcases generate_found h (fun _ _ => True) trivial (fun _ _ _ _ _ _ _ => trivial) with
    ⟨h1, -⟩ | ⟨st, h1, F, -⟩
  · rw [h1]; simp
  · rw [h1]
    refine ⟨F.keys, fun id w hw => ?_⟩
    obtain ⟨-, h2, h3, ⟨p, hp, hf⟩, n, hn, h4, -⟩ := F.ops id w hw
    refine ⟨h2, onlyWay_nodes hd w h3 ?_, h3, ?_⟩
    · intro m hm
      obtain rfl : n = m := by rw [h4] at hm; simpa using hm
      exact (ht.all n).1 hn
    · obtain ⟨q, hq, rfl⟩ := List.mem_map.1 hp
      exact ⟨q, hq, hf⟩

theorem forall₂_getElem {α β : Type} {R : α → β → Prop} {l : List α} {m : List β}
    (h : List.Forall₂ R l m) (i : Nat) (h1 : i < l.length) (h2 : i < m.length) : R l[i] m[i] := by
  have := (List.forall₂_iff_get.1 h).2 i h1 h2
  simpa using this

/-- In a chain of the graph every layer after the first comes after the first in the order. -/
theorem onlyWay_after {g : Gr N} {order : List N} (ht : TopoOrder g order) {w : List N}
    (ho : OnlyWay g w) (i : Nat) (hi : i + 1 < w.length) :
    order.idxOf (w[i]'(by omega)) < order.idxOf w[i + 1] := by
  obtain ⟨e, h1, h2⟩ := onlyWay_step w i hi ho
  have he : e ∈ edgesFrom g (w[i]'(by omega)) := by rw [h1]; simp
  obtain ⟨h3, h4⟩ := List.mem_filter.1 he
  have := ht.forward e h3
  rw [h2] at this
  rwa [show e.src = w[i]'(by omega) by simpa using h4] at this

theorem onlyWay_le {g : Gr N} {order : List N} (ht : TopoOrder g order) {w : List N}
    (ho : OnlyWay g w) : ∀ (i : Nat) (hi : i < w.length),
    order.idxOf (w[0]'(by omega)) + i ≤ order.idxOf w[i]
  | 0, _ => by simp
  | i + 1, hi => by
      have h1 := onlyWay_le ht ho i (by omega)
      have h2 := onlyWay_after ht ho i hi
      omega

theorem idxOf_append_lt {order pre rest : List N} {x : N} (h : order = pre ++ rest) (hx : x ∈ pre) :
    order.idxOf x < pre.length := by
  rw [h, List.idxOf_append_of_mem hx]
  exact List.idxOf_lt_length_iff.2 hx

theorem idxOf_first {order pre rest : List N} {x : N} (h : order = pre ++ x :: rest) (hn : order.Nodup) :
    order.idxOf x = pre.length := by
  have : x ∉ pre := by
    rw [h, List.nodup_append] at hn
    intro hx
    exact hn.2.2 x hx x (by simp) rfl
  rw [h, List.idxOf_append_of_notMem this]
  simp

/-- The layers collected from a node that is in no operation are in no operation, when the layers that
can be in a pattern after its first have one input. -/
theorem collect_fresh {S : Setup N P} {g : Gr N} {ps : List (List P)} {order pre rest : List N}
    {st : Dict (List N) × List N} {n : N} (ht : TopoOrder g order) (hsplit : order = pre ++ n :: rest)
    (F : Found S g ps pre st) (hn : n ∉ st.2)
    (hone : ∀ p ∈ ps, ∀ l ∈ p.tail, ∀ m, S.fits l m = true → (edgesInto g m).length ≤ 1)
    (hfit : ∃ p ∈ ps, Fits S p (collect S g (maxLen ps) 0 ps n))
    (hhead : (collect S g (maxLen ps) 0 ps n).head? = some n) :
    ∀ m ∈ collect S g (maxLen ps) 0 ps n, m ∉ st.2 := by
  set w := collect S g (maxLen ps) 0 ps n with hw
  have how : OnlyWay g w := (collect_only S g (maxLen ps) 0 ps n).1
  have key : ∀ j (hj : j < w.length), w[j] ∉ st.2 := by
    intro j
    induction j with
    | zero =>
      intro hj
      rw [List.head?_eq_getElem?, List.getElem?_eq_getElem hj] at hhead
      obtain e : w[0] = n := by simpa using hhead
      rwa [e]
    | succ j ih =>
      intro hj hmem
      obtain ⟨id, w', hw', hm'⟩ := (F.fused _).1 hmem
      obtain ⟨-, h2, ho', ⟨p', hp', hf'⟩, n', hn', hh', -⟩ := F.ops id w' hw'
      obtain ⟨k, hk, ek⟩ := List.mem_iff_getElem.1 hm'
      cases k with
      | zero =>
        -- the head of the other operation was visited before
        rw [List.head?_eq_getElem?, List.getElem?_eq_getElem (by omega)] at hh'
        have e1 : w'[0]'(by omega) = n' := by simpa using hh'
        have e2 := idxOf_append_lt hsplit hn'
        have e3 := onlyWay_le ht how (j + 1) hj
        rw [List.head?_eq_getElem?, List.getElem?_eq_getElem (by omega)] at hhead
        have e4 : w[0]'(by omega) = n := by simpa using hhead
        rw [e4, idxOf_first hsplit ht.once] at e3
        rw [← ek, e1] at e3
        omega
      | succ k =>
        obtain ⟨e, a1, a2⟩ := onlyWay_step w j hj how
        obtain ⟨e', b1, b2⟩ := onlyWay_step w' k hk ho'
        have he : e ∈ edgesFrom g (w[j]'(by omega)) := by rw [a1]; simp
        have he' : e' ∈ edgesFrom g (w'[k]'(by omega)) := by rw [b1]; simp
        obtain ⟨c1, c2⟩ := List.mem_filter.1 he
        obtain ⟨d1, d2⟩ := List.mem_filter.1 he'
        obtain ⟨p, hp, hf⟩ := hfit
        have hl := hf.length_eq
        have hle := hone p hp (p[j + 1]'(by omega)) (by
          cases p with
          | nil => simp at hl; omega
          | cons x p => simp) (w[j + 1]) (forall₂_getElem hf (j + 1) (by omega) hj)
        have i1 : e ∈ edgesInto g w[j + 1] := List.mem_filter.2 ⟨c1, by simp [a2]⟩
        have i2 : e' ∈ edgesInto g w[j + 1] := List.mem_filter.2 ⟨d1, by simp [b2, ek]⟩
        have hee : e = e' := by
          match hx : edgesInto g w[j + 1], hle with
          | [], _ => rw [hx] at i1; simp at i1
          | [x], _ =>
            rw [hx] at i1 i2
            rw [List.mem_singleton.1 i1, List.mem_singleton.1 i2]
          | _ :: _ :: _, h => simp at h
        have s1 : e.src = w[j]'(by omega) := by simpa using c2
        have s2 : e'.src = w'[k]'(by omega) := by simpa using d2
        refine ih (by omega) ((F.fused _).2 ⟨id, w', hw', ?_⟩)
        rw [← s1, hee, s2]
        exact List.getElem_mem _
  intro m hm
  obtain ⟨j, hj, rfl⟩ := List.mem_iff_getElem.1 hm
  exact key j hj

/-- **C39** (missing: layers in the middle or at the end of a pattern that join two branches, where the
code puts one layer in two operations, see `C39_overlap_violated`): the generated operations have no
layer in common when the layers that match a pattern after its first position have one input. -/
theorem C39_disjoint_partial {S : Setup N P} {g : Gr N} {order : List N} {ps : List (Pattern P C)}
    {info : Info N P C} (ht : TopoOrder g order)
    (hone : ∀ p ∈ ps, ∀ l ∈ p.layers.tail, ∀ m, S.fits l m = true → (edgesInto g m).length ≤ 1)
    (h : generate S g order ps [] = some info) : Apart info.data := by
  have hone' : ∀ p ∈ ps.map Pattern.layers, ∀ l ∈ p.tail, ∀ m, S.fits l m = true →
      (edgesInto g m).length ≤ 1 := by
    intro p hp
    obtain ⟨q, hq, rfl⟩ := List.mem_map.1 hp
    exact hone q hq
  have hI : ∀ pre st n st', Found S g (ps.map Pattern.layers) pre st → (pre <+: order → Apart st.1) →
      genStep S g (ps.map Pattern.layers) st n = some st' → (pre ++ [n] <+: order → Apart st'.1) := by
    intro pre st n st' F hA hstep hpre
    have hA' := hA ((List.prefix_append pre [n]).trans hpre)
    rw [genStep] at hstep
    split at hstep
    · obtain rfl : st = st' := by simpa using hstep
      exact hA'
    · rename_i hn
      simp only at hstep
      split at hstep
      · rename_i hv
        split at hstep
        · simp at hstep
        · obtain rfl : _ = st' := by simpa using hstep
          obtain ⟨rest, hr⟩ := hpre
          obtain ⟨h2, hp⟩ := by
            simpa using (isValid_iff S (ps.map Pattern.layers) _ []).1 hv
          have hhead : (collect S g (maxLen (ps.map Pattern.layers)) 0 (ps.map Pattern.layers) n).head? =
              some n := by
            rcases (collect_only S g (maxLen (ps.map Pattern.layers)) 0 (ps.map Pattern.layers) n).2 with
              h | h
            · rw [h] at h2; simp at h2
            · exact h
          have hfresh := collect_fresh ht (by simpa using hr.symm) F hn hone' (by simpa using hp) hhead
          refine List.pairwise_append.2 ⟨hA', by simp, ?_⟩
          intro a ha b hb m hma hmb
          obtain rfl : b = _ := by simpa using hb
          exact hfresh m hmb ((F.fused m).2 ⟨a.1, a.2, ha, hma⟩)
      · obtain rfl : st = st' := by simpa using hstep
        exact hA'
  rcases generate_found h (fun pre st => pre <+: order → Apart st.1)
    (by intro _; exact List.Pairwise.nil) hI with ⟨h1, -⟩ | ⟨st, h1, F, hA⟩
  · rw [h1]; exact List.Pairwise.nil
  · rw [h1]; exact hA List.prefix_rfl

/-- **C39** (missing: chains that a longer pattern follows one layer further without matching in full,
which the code then does not fuse, see `C39_longer_pattern_violated`): every chain that matches a
pattern, and that no pattern follows further, has its first layer in a generated operation; if that
operation starts there, it is the chain. -/
theorem C39_complete_partial {S : Setup N P} {g : Gr N} {order : List N} {ps : List (Pattern P C)}
    {info : Info N P C} (ht : TopoOrder g order) (h : generate S g order ps [] = some info)
    {n : N} {c : List N} (hn : n ∈ g.nodes) (hc : c ≠ []) (ho : OnlyWay g (n :: c))
    {p : Pattern P C} (hp : p ∈ ps) (hf : Fits S p.layers (n :: c))
    (hstop : ∀ q ∈ ps, ∀ z m, (n :: c).getLast? = some z → nextNodes g z = [m] →
      ¬ Fits S (q.layers.take (c.length + 2)) (n :: c ++ [m])) :
    ∃ id w, (id, w) ∈ info.data ∧ n ∈ w ∧ (w.head? = some n → w = n :: c) := by
  have hl := hf.length_eq
  simp only [List.length_cons] at hl
  have hcol : collect S g (maxLen (ps.map Pattern.layers)) 0 (ps.map Pattern.layers) n = n :: c := by
    refine collect_eq S g c n _ 0 _ ho ?_ ?_ ?_
    · have := le_maxLen (List.mem_map.2 ⟨p, hp, rfl⟩ : p.layers ∈ ps.map Pattern.layers)
      omega
    · refine ⟨p.layers, List.mem_map.2 ⟨p, hp, rfl⟩, by omega, ?_⟩
      rw [List.drop_zero, List.take_of_length_le (by omega)]
      exact hf
    · intro q hq z m hz hm hlen
      obtain ⟨q', hq', rfl⟩ := List.mem_map.1 hq
      rw [List.drop_zero]
      exact hstop q' hq' z m hz hm
  rcases generate_found h (fun _ _ => True) trivial (fun _ _ _ _ _ _ _ => trivial) with
    ⟨-, h1⟩ | ⟨st, h1, F, -⟩
  · rw [h1] at hp; simp at hp
  · have hin : n ∈ st.2 := by
      by_contra hx
      have := F.visited n ((ht.all n).2 hn) hx
      rw [hcol] at this
      have hv : isValidFusion S (ps.map Pattern.layers) (n :: c) [] = true := by
        refine (isValid_iff S _ _ []).2 (Or.inr ⟨?_, p.layers, List.mem_map.2 ⟨p, hp, rfl⟩, hf⟩)
        have := List.length_pos_iff.2 hc
        simp only [List.length_cons]; omega
      rw [hv] at this
      simp at this
    obtain ⟨id, w, hw, hm⟩ := (F.fused n).1 hin
    refine ⟨id, w, h1 ▸ hw, hm, fun hh => ?_⟩
    obtain ⟨-, -, -, -, n', -, h5, h6⟩ := F.ops id w hw
    obtain rfl : n' = n := by rw [hh] at h5; simpa using h5.symm
    rw [h6, hcol]

/-! ### What a graph accepts -/

theorem steps_iff {g : Gr N} {w : List N} : linked g w = true ↔ OnlyWay g w := by
  rw [linked]
  rw [List.all_eq_true]
  constructor
  · intro h
    induction w with
    | nil => trivial
    | cons a w ih =>
      cases w with
      | nil => trivial
      | cons b w =>
        have h0 := h 0 (by simp)
        have h0' : nextNodes g a = [b] := by simpa using h0
        refine ⟨(next_one (by rw [h0']; rfl)).1 (by rw [h0']; simp), ih ?_⟩
        intro i hi
        have := h (i + 1) (by simp at hi ⊢; omega)
        simpa using this
  · intro h i hi
    have hi' : i + 1 < w.length := by simp at hi; omega
    rw [List.getElem?_eq_getElem (by omega), List.getElem?_eq_getElem hi']
    simpa using next_of_only (onlyWay_step w i hi' h)

theorem validateFrom_iff {S : Setup N P} {g : Gr N} {info : Info N P C} (d : Dict (List N)) :
    ∀ used : List N, validateFrom S g info used d = true ↔
      Apart d ∧ ∀ id w, (id, w) ∈ d → (∀ n ∈ w, n ∈ g.nodes) ∧ OnlyWay g w ∧ (∀ n ∈ w, n ∉ used) ∧
        (w.map S.name ∈ info.manual ∨ 2 ≤ w.length ∧ ∃ p ∈ info.patterns, Fits S p.layers w) := by
  induction d with
  | nil => intro used; simp [validateFrom, Apart]
  | cons q d ih =>
    obtain ⟨id0, w0⟩ := q
    intro used
    rw [validateFrom]
    simp only [Bool.and_eq_true, steps_iff, ih, isValid_iff]
    simp only [List.all_eq_true, decide_eq_true_eq, List.mem_map]
    constructor
    · rintro ⟨⟨⟨⟨h1, h2⟩, h3⟩, h4⟩, h5, h6⟩
      refine ⟨List.pairwise_cons.2 ⟨?_, h5⟩, ?_⟩
      · rintro ⟨id, w⟩ hb n hn hnb
        exact (h6 id w hb).2.2.1 n hnb (List.mem_append_right _ hn)
      · intro id w hw
        rcases List.mem_cons.1 hw with e | hw
        · obtain ⟨rfl, rfl⟩ : id = id0 ∧ w = w0 := by simpa using e
          refine ⟨h1, h2, h3, h4.imp (fun x => x) ?_⟩
          rintro ⟨h7, p, ⟨q, hq, rfl⟩, h8⟩
          exact ⟨h7, q, hq, h8⟩
        · obtain ⟨a, b, c, d⟩ := h6 id w hw
          exact ⟨a, b, fun n hn hu => c n hn (List.mem_append_left _ hu), d⟩
    · rintro ⟨h1, h2⟩
      obtain ⟨h3, h4⟩ := List.pairwise_cons.1 h1
      obtain ⟨a, b, c, d⟩ := h2 id0 w0 (by simp)
      refine ⟨⟨⟨⟨a, b⟩, c⟩, d.imp (fun x => x) ?_⟩, h4, ?_⟩
      · rintro ⟨h7, p, hp, h8⟩
        exact ⟨h7, p.layers, ⟨p, hp, rfl⟩, h8⟩
      · intro id w hw
        obtain ⟨a', b', c', d'⟩ := h2 id w (List.mem_cons_of_mem _ hw)
        refine ⟨a', b', ?_, d'⟩
        intro n hn hu
        rcases List.mem_append.1 hu with hu | hu
        · exact c' n hn hu
        · exact h3 (id, w) hw n hu hn

/-- **C39**: what the graph accepts. Setting fused operations, or any later change of the graph, raises
exactly when the operations are not disjoint chains of the graph, each listed by hand or matching a
pattern. -/
theorem C39_accepted (S : Setup N P) (g : Gr N) (info : Info N P C) :
    validate S g info = true ↔ Accepted S g info := by
  rw [validate, validateFrom_iff, Accepted]
  refine and_congr_right fun _ => forall₃_congr fun id w hw => ?_
  simp

/-! ### The code does not keep the operations apart -/

/-- Layers 1 and 2 are batch normalisations, 3 adds them and 4 is the activation. -/
def joinGraph : Gr Nat :=
  ⟨[0, 1, 2, 3, 4], [⟨0, 1, 0, 0⟩, ⟨0, 2, 0, 0⟩, ⟨1, 3, 0, 0⟩, ⟨2, 3, 0, 1⟩, ⟨3, 4, 0, 0⟩], [0], [(4, 0)]⟩

/-- The type of a layer is a number; a pattern layer is a type. -/
def joinSetup : Setup Nat Nat where
  name := fun n => (toString n).toList
  fits := fun l n => decide ([0, 1, 1, 2, 3][n]? = some l)

/-- The pattern of the TFLite platform: batch normalisation, addition, activation. -/
def joinPatterns : List (Pattern Nat Unit) := [⟨[1, 2, 3], none⟩]

/-- **C39** fails on graphs with a join (here with a pattern of the TFLite platform): both branches are
fused with the same addition and activation. The graph then refuses the operations. -/
theorem C39_overlap_violated :
    TopoOrder joinGraph [0, 1, 2, 3, 4] ∧
    (generate joinSetup joinGraph [0, 1, 2, 3, 4] joinPatterns []).map (fun i => i.data.map Prod.snd) =
      some [[1, 3, 4], [2, 3, 4]] ∧
    (generate joinSetup joinGraph [0, 1, 2, 3, 4] joinPatterns []).map (validate joinSetup joinGraph) =
      some false := by
  refine ⟨⟨by decide, fun n => Iff.rfl, by decide⟩, by decide +kernel, by decide +kernel⟩

/-- A chain of layers of types 0, 1, 2, 3. -/
def lineGraph : Gr Nat :=
  ⟨[0, 1, 2, 3], [⟨0, 1, 0, 0⟩, ⟨1, 2, 0, 0⟩, ⟨2, 3, 0, 0⟩], [0], [(3, 0)]⟩

def lineSetup : Setup Nat Nat where
  name := fun n => (toString n).toList
  fits := fun l n => decide (l = n)

/-- **C39** (completeness) fails of the code: layers 0 and 1 match the first pattern but are not fused,
because the second pattern agrees with one layer more and then fails. -/
theorem C39_longer_pattern_violated :
    (generate lineSetup lineGraph [0, 1, 2, 3] [⟨[0, 1], none⟩, ⟨[0, 1, 2, 9], (none : Option Unit)⟩]
      []).map (fun i => i.data) = some [] ∧
    Fits lineSetup [0, 1] [0, 1] ∧ OnlyWay lineGraph [0, 1] := by
  refine ⟨by decide +kernel, ?_, ?_⟩
  · exact .cons (by decide) (.cons (by decide) .nil)
  · exact ⟨⟨⟨0, 1, 0, 0⟩, by decide, rfl⟩, trivial⟩

/-- Two chains whose layers are named `a`, `b_c` and `a_b`, `c`. -/
def clashGraph : Gr Nat :=
  ⟨[0, 1, 2, 3, 4], [⟨0, 1, 0, 0⟩, ⟨1, 2, 0, 0⟩, ⟨2, 3, 0, 0⟩, ⟨3, 4, 0, 0⟩], [0], [(4, 0)]⟩

def clashSetup : Setup Nat Nat where
  name := fun n => [['x'], ['a'], ['b', '_', 'c'], ['a', '_', 'b'], ['c']].getD n []
  fits := fun l n => decide ([0, 1, 2, 1, 2][n]? = some l)

/-- **C39**: the generator fails on a model whose layers have different names, because the identifiers
of two operations coincide. -/
theorem C39_name_clash_violated :
    (∀ n ∈ clashGraph.nodes, ∀ m ∈ clashGraph.nodes, clashSetup.name n = clashSetup.name m → n = m) ∧
    (generate clashSetup clashGraph [0, 1, 2, 3, 4] [⟨[1, 2], (none : Option Unit)⟩] []).isNone = true := by
  refine ⟨by decide, by decide +kernel⟩

/-- The hypotheses of the theorems above are met: two convolutions with activations, in sequence. -/
example : ∃ info : Info Nat Nat Unit,
    generate joinSetup clashGraph [0, 1, 2, 3, 4] [⟨[1, 1], none⟩, ⟨[2, 3], some ()⟩] [] = some info ∧
    info.data.map Prod.snd = [[1, 2], [3, 4]] ∧ TopoOrder clashGraph [0, 1, 2, 3, 4] ∧
    (∀ n ∈ clashGraph.nodes, (edgesInto clashGraph n).length ≤ 1) := by
  refine ⟨(generate joinSetup clashGraph [0, 1, 2, 3, 4] [⟨[1, 1], none⟩, ⟨[2, 3], some ()⟩] []).get
    (by decide +kernel), by simp, by decide +kernel, ⟨by decide, fun n => Iff.rfl, by decide⟩, by decide⟩

end MCT.Fusing
