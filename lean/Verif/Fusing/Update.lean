/-
C80: shift negative correction keeps the fused operations valid when the corrected activation closes a
fused operation, and breaks them otherwise.
-/
import Verif.Fusing.Records
import Verif.Graph.Between
import Verif.Graph.Witness

namespace MCT.Fusing
open MCT.Graph MCT.GraphSpec MCT.FusingSpec

set_option linter.unusedSectionVars false
set_option linter.unusedVariables false
set_option linter.unusedSimpArgs false

variable {N P C : Type} [DecidableEq N] [DecidableEq C]

/-- The edges that leave a node that is neither the first end of the split edge nor the new node. -/
theorem inserted_from {g g' : Gr N} {new first last : N} {e : Edge N} {R : List (Edge N)}
    (M : Inserted g g' new first last e R) {x : N} (h1 : x ≠ first) (h2 : x ≠ new) :
    (edgesFrom g' x).Perm (edgesFrom g x) := by
  have a := M.edges.filter (fun e : Edge N => decide (e.src = x))
  have b := M.split.filter (fun e : Edge N => decide (e.src = x))
  rw [List.filter_cons, List.filter_cons] at a
  rw [List.filter_cons] at b
  simp only [decide_eq_true_eq, M.esrc, Ne.symm h1, Ne.symm h2, if_false] at a b
  exact a.trans b.symm

theorem inserted_first {g g' : Gr N} {new first last : N} {e : Edge N} {R : List (Edge N)}
    (M : Inserted g g' new first last e R) (hne : new ≠ first) (h : edgesFrom g first = [e]) :
    edgesFrom g' first = [⟨first, new, e.si, e.di⟩] := by
  have a := M.edges.filter (fun e : Edge N => decide (e.src = first))
  have b := M.split.filter (fun e : Edge N => decide (e.src = first))
  rw [List.filter_cons, List.filter_cons] at a
  rw [List.filter_cons] at b
  simp only [decide_eq_true_eq, M.esrc, hne, if_false, if_true] at a b
  rw [show g.edges.filter (fun e : Edge N => decide (e.src = first)) = [e] from h] at b
  have hR : R.filter (fun e : Edge N => decide (e.src = first)) = [] := by
    have := b.length_eq
    simpa using this
  rw [hR] at a
  exact List.perm_singleton.1 a

theorem inserted_new {g g' : Gr N} {new first last : N} {e : Edge N} {R : List (Edge N)}
    (M : Inserted g g' new first last e R) (hne : first ≠ new) (h : ∀ e ∈ g.edges, e.src ≠ new) :
    edgesFrom g' new = [⟨new, last, e.si, e.di⟩] := by
  have a := M.edges.filter (fun e : Edge N => decide (e.src = new))
  have hR : R.filter (fun e : Edge N => decide (e.src = new)) = [] := by
    rw [List.filter_eq_nil_iff]
    intro r hr
    simpa using h r (M.split.mem_iff.2 (List.mem_cons_of_mem _ hr))
  rw [List.filter_cons, List.filter_cons, hR] at a
  simp only [decide_eq_true_eq, hne, if_false, if_true] at a
  exact List.perm_singleton.1 a

/-- A chain that does not lead on from the first end of the split edge is still a chain. -/
theorem inserted_onlyWay {g g' : Gr N} {new first last : N} {e : Edge N} {R : List (Edge N)}
    (M : Inserted g g' new first last e R) : ∀ (w : List N), first ∉ w.dropLast → new ∉ w →
    OnlyWay g w → OnlyWay g' w
  | [], _, _, _ => trivial
  | [a], _, _, _ => trivial
  | a :: b :: w, h1, h2, ho => by
      simp only [List.dropLast_cons_cons, List.mem_cons, not_or] at h1 h2
      obtain ⟨⟨x, hx, hb⟩, ho'⟩ := ho
      refine ⟨⟨x, ?_, hb⟩, inserted_onlyWay M (b :: w) h1.2 (by simp [h2]) ho'⟩
      have := inserted_from M (Ne.symm h1.1) (Ne.symm h2.1)
      rw [hx] at this
      exact List.perm_singleton.1 this

theorem onlyWay_snoc {g : Gr N} {b : N} : ∀ (w : List N) (z : N), w.getLast? = some z →
    OnlyWay g w → (∃ e, edgesFrom g z = [e] ∧ e.dst = b) → OnlyWay g (w ++ [b])
  | [], z, h, _, _ => by simp at h
  | [a], z, h, _, he => by
      obtain rfl : a = z := by simpa using h
      exact ⟨he, trivial⟩
  | a :: c :: w, z, h, ho, he => ⟨ho.1, onlyWay_snoc (c :: w) z (by simpa using h) ho.2 he⟩

theorem unique_nodup_append : ∀ (l acc : List N), acc.Nodup → (∀ x ∈ l, x ∉ acc) → l.Nodup →
    l.foldl (fun acc n => if n ∈ acc then acc else acc ++ [n]) acc = acc ++ l
  | [], acc, _, _, _ => by simp
  | a :: l, acc, h1, h2, h3 => by
      rw [List.foldl_cons, if_neg (h2 a (by simp))]
      rw [List.nodup_cons] at h3
      rw [unique_nodup_append l (acc ++ [a]) ?_ ?_ h3.2]
      · simp
      · rw [List.nodup_append]
        refine ⟨h1, by simp, ?_⟩
        intro x hx y hy
        obtain rfl : y = a := by simpa using hy
        rintro rfl
        exact h2 x (by simp) hx
      · intro x hx hm
        rcases List.mem_append.1 hm with hm | hm
        · exact h2 x (by simp [hx]) hm
        · obtain rfl : x = a := by simpa using hm
          exact h3.1 hx

theorem foldl_seen : ∀ (l acc : List N), (∀ x ∈ l, x ∈ acc) →
    l.foldl (fun acc n => if n ∈ acc then acc else acc ++ [n]) acc = acc
  | [], acc, _ => rfl
  | a :: l, acc, h => by
      rw [List.foldl_cons, if_pos (h a (by simp))]
      exact foldl_seen l acc (fun x hx => h x (by simp [hx]))

theorem unique_twice {w : List N} {b : N} (hw : w.Nodup) (hb : b ∉ w) : unique (w ++ w ++ [b]) = w ++ [b] := by
  rw [unique, List.foldl_append, List.foldl_append, unique_nodup_append w [] (by simp) (by simp) hw]
  rw [List.nil_append, foldl_seen w w (fun x hx => hx)]
  simp [hb]

/-- The graph after an insertion accepts the operations it accepted, when the insertion is not inside an
operation. -/
theorem accepted_insert {S : Setup N P} {g g' : Gr N} {info : Info N P C} {new first last : N}
    {e : Edge N} {R : List (Edge N)} (hacc : Accepted S g info) (M : Inserted g g' new first last e R)
    (hnew : new ∉ g.nodes) (hin : ∀ id w, (id, w) ∈ info.data → first ∉ w.dropLast) :
    Accepted S g' info := by
  refine ⟨hacc.1, fun id w hw => ?_⟩
  obtain ⟨a, b, c⟩ := hacc.2 id w hw
  refine ⟨fun n hn => ?_, inserted_onlyWay M w (hin id w hw) (fun hx => hnew (a new hx)) b, c⟩
  rw [M.nodes]
  exact List.mem_append_left _ (a n hn)

theorem gather_mem {S : Setup N P} {info : Info N P C} (h : Consistent S info) {id : Name} {w : List N}
    (hw : (id, w) ∈ info.data) {n : N} (hn : n ∈ w) :
    isFused info n = true ∧ info.map.get (S.name n) = some id ∧ info.data.get id = some w ∧
      gather S info n = some w := by
  have h1 : isFused info n = true := by
    simp only [isFused, List.any_eq_true, decide_eq_true_eq]
    exact ⟨(id, w), hw, hn⟩
  have h2 := h.mapped id w hw n hn
  have h3 := Dict.mem_get h.keys hw
  refine ⟨h1, h2, h3, ?_⟩
  rw [gather, if_pos h1, h2]
  exact h3

/-- Replacing an operation by a longer one with the same layers and a new one, listed by hand, gives
operations the graph accepts. -/
theorem accepted_replace {S : Setup N P} {g : Gr N} {info i2 : Info N P C} {id id' : Name}
    {w w' : List N} {new : N} (hc : Consistent S info) (hacc : Accepted S g info)
    (hw : (id, w) ∈ info.data) (hne : w ≠ []) (hsub : ∀ n, n ∈ w' ↔ n ∈ w ∨ n = new)
    (hnew : ∀ id w, (id, w) ∈ info.data → new ∉ w)
    (hg : new ∈ g.nodes) (ho : OnlyWay g w')
    (d2 : i2.data = info.data.filter (fun p => decide (p.1 ≠ id)) ++ [(id', w')])
    (p2 : i2.patterns = info.patterns)
    (m2 : ∀ x, x ∈ i2.manual ↔ x ∈ info.manual.erase (w.map S.name) ∨ x = w'.map S.name) :
    Accepted S g i2 := by
  have hmem : ∀ k v, (k, v) ∈ info.data.filter (fun p => decide (p.1 ≠ id)) ↔
      (k, v) ∈ info.data ∧ k ≠ id := by
    intro k v; simp [List.mem_filter]
  have hdis : ∀ k v, (k, v) ∈ info.data → k ≠ id → ∀ n ∈ v, n ∉ w := by
    intro k v hv hk n hn hn'
    exact hk (consistent_unique hc hv hw hn hn' rfl).1
  constructor
  · rw [d2]
    refine List.pairwise_append.2 ⟨hacc.1.sublist List.filter_sublist, by simp, ?_⟩
    rintro ⟨k, v⟩ hv b hb n hn hnb
    obtain ⟨h1, h2⟩ := (hmem k v).1 hv
    obtain rfl : b = (id', w') := by simpa using hb
    rcases (hsub n).1 hnb with h3 | rfl
    · exact hdis k v h1 h2 n hn h3
    · exact hnew k v h1 hn
  · intro k v hv
    rw [d2] at hv
    rw [p2]
    rcases List.mem_append.1 hv with hv | hv
    · obtain ⟨h1, h2⟩ := (hmem k v).1 hv
      obtain ⟨a, b, c⟩ := hacc.2 k v h1
      refine ⟨a, b, c.imp (fun hm => (m2 _).2 (Or.inl ?_)) (fun x => x)⟩
      refine (List.mem_erase_of_ne ?_).2 hm
      intro heq
      obtain ⟨x, w0, rfl⟩ : ∃ x w0, w = x :: w0 := by
        cases w with
        | nil => exact absurd rfl hne
        | cons x w0 => exact ⟨x, w0, rfl⟩
      cases v with
      | nil => simp at heq
      | cons y v0 =>
        have : S.name y = S.name x := by
          have := congrArg List.head? heq
          simpa using this
        exact h2 (consistent_unique hc h1 hw (n := y) (m := x) (by simp) (by simp) this).1
    · obtain ⟨rfl, rfl⟩ : k = id' ∧ v = w' := by simpa using hv
      refine ⟨fun n hn => ?_, ho, Or.inl ((m2 _).2 (Or.inr rfl))⟩
      rcases (hsub n).1 hn with h | rfl
      · exact (hacc.2 id w hw).1 n h
      · exact hg

/-- **C80** (missing: activations that do not close a fused operation together with the layer before
them, where the code breaks the operations, see `C80_unfused_violated` and `C80_prev_only_violated`):
when the corrected activation is the last layer of a fused operation, the operation is extended by the
inserted addition, the others stay, the records agree and the graph with the addition accepts them. -/
theorem C80_add_partial {S : Setup N P} {g g' : Gr N} {info : Info N P C} {prev nonlin add last : N}
    {e : Edge N} {R : List (Edge N)} {id : Name} {w : List N} (wf : WellFormed g)
    (hc : Consistent S info) (hacc : Accepted S g info)
    (hw : (id, w) ∈ info.data) (hwn : w.Nodup) (hprev : prev ∈ w) (hlast : w.getLast? = some nonlin)
    (hadd : add ∉ g.nodes) (hname : ∀ n ∈ g.nodes, S.name n ≠ S.name add)
    (hone : edgesFrom g nonlin = [e]) (M : Inserted g g' add nonlin last e R)
    (hid : fusedId S (w ++ [add]) ∉ info.data.map Prod.fst)
    (hman : (w ++ [add]).map S.name ∉ info.manual) :
    ∃ info', updateWithAdd S info prev nonlin add = some info' ∧ Consistent S info' ∧
      Accepted S g' info' ∧
      info'.data = info.data.filter (fun p => decide (p.1 ≠ id)) ++ [(fusedId S (w ++ [add]), w ++ [add])] := by
  have hnl : nonlin ∈ w := List.mem_of_getLast? hlast
  obtain ⟨f1, m1, d1, g1⟩ := gather_mem hc hw hprev
  obtain ⟨f2, m2, d2, g2⟩ := gather_mem hc hw hnl
  have haw : add ∉ w := fun h => hadd ((hacc.2 id w hw).1 add h)
  have hr : ∃ i1, removeOp S info id = some i1 := by rw [removeOp, d1]; exact ⟨_, rfl⟩
  obtain ⟨i1, hr⟩ := hr
  obtain ⟨c1, dat1, pat1, w1, hw1, man1⟩ := consistent_removeOp hc hr
  obtain ⟨-, rfl⟩ : id = id ∧ w1 = w := by
    have := Dict.mem_get hc.keys hw1
    rw [d1] at this
    exact ⟨rfl, by simpa using this.symm⟩
  have hnf : isFused i1 nonlin = false := by
    rw [← Bool.not_eq_true]
    simp only [isFused, List.any_eq_true, decide_eq_true_eq, dat1, List.mem_filter]
    rintro ⟨⟨k, v⟩, ⟨hkv, hk⟩, hnv⟩
    exact hk (consistent_unique hc hkv hw hnv hnl rfl).1
  have hman' : (w1 ++ [add]).map S.name ∉ i1.manual := by
    rw [man1]; exact fun h => hman (List.mem_of_mem_erase h)
  have hma : ∃ i2, addManual i1 ((w1 ++ [add]).map S.name) = some i2 := by
    rw [addManual, if_neg hman']; exact ⟨_, rfl⟩
  obtain ⟨i2, hma⟩ := hma
  obtain ⟨c2, dat2, pat2, man2⟩ := consistent_addManual c1 hma
  have hid2 : fusedId S (w1 ++ [add]) ∉ i2.data.map Prod.fst := by
    rw [dat2, dat1]
    intro h
    obtain ⟨p, hp, he⟩ := List.mem_map.1 h
    exact hid (List.mem_map.2 ⟨p, (List.mem_filter.1 hp).1, he⟩)
  have hao : ∃ i3, addOp S i2 (fusedId S (w1 ++ [add])) (w1 ++ [add]) = some i3 := by
    rw [addOp, if_neg (by simpa [Dict.has] using Dict.get_none.2 hid2)]; exact ⟨_, rfl⟩
  obtain ⟨i3, hao⟩ := hao
  have hfresh : ∀ n ∈ w1 ++ [add], ∀ id' v, (id', v) ∈ i2.data → ∀ m ∈ v, S.name m ≠ S.name n := by
    intro n hn id' v hv m hm heq
    rw [dat2, dat1] at hv
    obtain ⟨hv1, hv2⟩ := List.mem_filter.1 hv
    rcases List.mem_append.1 hn with hn | hn
    · exact (of_decide_eq_true hv2) (consistent_unique hc hv1 hw hm hn heq).1
    · obtain rfl : n = add := by simpa using hn
      exact hname m ((hacc.2 id' v hv1).1 m hm) heq
  obtain ⟨c3, dat3, pat3, man3⟩ := consistent_addOp c2 hao hfresh
  have hdata : i3.data = info.data.filter (fun p => decide (p.1 ≠ id)) ++
      [(fusedId S (w1 ++ [add]), w1 ++ [add])] := by rw [dat3, dat2, dat1]
  refine ⟨i3, ?_, c3, ?_, hdata⟩
  · rw [updateWithAdd, g1]
    simp only [Option.bind_eq_bind, Option.bind_some, g2, unique_twice hwn haw]
    rw [dropOf, if_pos f1, m1]
    simp only [Option.bind_eq_bind, Option.bind_some, hr]
    rw [dropOf, hnf]
    simp only [Bool.false_eq_true, if_false, Option.bind_some, hma, hao]
  · -- the graph after the insertion
    have hin : ∀ id' v, (id', v) ∈ info.data → nonlin ∉ v.dropLast := by
      intro id' v hv hx
      obtain ⟨-, rfl⟩ := consistent_unique hc hv hw (List.dropLast_subset v hx) hnl rfl
      have := List.dropLast_append_getLast? nonlin hlast
      rw [← this, List.nodup_append] at hwn
      exact hwn.2.2 nonlin hx nonlin (by simp) rfl
    have hacc' := accepted_insert hacc M hadd hin
    refine accepted_replace hc hacc' hw (by rintro rfl; simp at hprev) (w' := w1 ++ [add]) (new := add)
      (by intro n; simp) (fun k v hv hx => hadd ((hacc.2 k v hv).1 add hx))
      (by rw [M.nodes]; simp) ?_ hdata (by rw [pat3, pat2, pat1]) ?_
    · refine onlyWay_snoc w1 nonlin hlast (hacc'.2 id w1 hw).2.1 ?_
      refine ⟨_, inserted_first M ?_ hone, rfl⟩
      rintro rfl
      exact haw hnl
    · intro x
      rw [man3, man2, man1]
      simp

/-- **C80**: when the corrected activation and the layer before it are in different operations, these and the
inserted addition become one operation, in this order, and the others stay. -/
theorem C80_add_joined {S : Setup N P} {info : Info N P C} {prev nonlin add : N}
    {ida idb : Name} {a b : List N} (hc : Consistent S info)
    (ha : (ida, a) ∈ info.data) (hb : (idb, b) ∈ info.data) (hne : ida ≠ idb) (hprev : prev ∈ a)
    (hnl : nonlin ∈ b) (hnd : (a ++ b ++ [add]).Nodup)
    (hid : fusedId S (a ++ b ++ [add]) ∉ info.data.map Prod.fst)
    (hman : (a ++ b ++ [add]).map S.name ∉ info.manual)
    (hname : ∀ id v, (id, v) ∈ info.data → ∀ m ∈ v, S.name m ≠ S.name add) :
    ∃ info', updateWithAdd S info prev nonlin add = some info' ∧ Consistent S info' ∧
      info'.data = info.data.filter (fun p => decide (p.1 ≠ ida ∧ p.1 ≠ idb)) ++
        [(fusedId S (a ++ b ++ [add]), a ++ b ++ [add])] := by
  obtain ⟨f1, m1, d1, g1⟩ := gather_mem hc ha hprev
  obtain ⟨f2, m2, d2, g2⟩ := gather_mem hc hb hnl
  obtain ⟨i1, hr⟩ : ∃ i1, removeOp S info ida = some i1 := by rw [removeOp, d1]; exact ⟨_, rfl⟩
  obtain ⟨c1, dat1, pat1, w1, hw1, man1⟩ := consistent_removeOp hc hr
  have hb1 : (idb, b) ∈ i1.data := by
    rw [dat1, List.mem_filter]
    exact ⟨hb, by simpa using Ne.symm hne⟩
  obtain ⟨f3, m3, d3, g3⟩ := gather_mem c1 hb1 hnl
  obtain ⟨i2, hr2⟩ : ∃ i2, removeOp S i1 idb = some i2 := by rw [removeOp, d3]; exact ⟨_, rfl⟩
  obtain ⟨c2, dat2, pat2, w2, hw2, man2⟩ := consistent_removeOp c1 hr2
  have hman' : (a ++ b ++ [add]).map S.name ∉ i2.manual := by
    rw [man2, man1]
    exact fun h => hman (List.mem_of_mem_erase (List.mem_of_mem_erase h))
  obtain ⟨i3, hma⟩ : ∃ i3, addManual i2 ((a ++ b ++ [add]).map S.name) = some i3 := by
    rw [addManual, if_neg hman']; exact ⟨_, rfl⟩
  obtain ⟨c3, dat3, pat3, man3⟩ := consistent_addManual c2 hma
  have hdat3 : i3.data = info.data.filter (fun p => decide (p.1 ≠ ida ∧ p.1 ≠ idb)) := by
    rw [dat3, dat2, dat1, List.filter_filter]
    congr 1
    funext p
    by_cases h1 : p.1 = ida <;> by_cases h2 : p.1 = idb <;> simp [h1, h2]
  have hid3 : fusedId S (a ++ b ++ [add]) ∉ i3.data.map Prod.fst := by
    rw [hdat3]
    intro h
    obtain ⟨p, hp, he⟩ := List.mem_map.1 h
    exact hid (List.mem_map.2 ⟨p, (List.mem_filter.1 hp).1, he⟩)
  obtain ⟨i4, hao⟩ : ∃ i4, addOp S i3 (fusedId S (a ++ b ++ [add])) (a ++ b ++ [add]) = some i4 := by
    rw [addOp, if_neg (by simpa [Dict.has] using Dict.get_none.2 hid3)]; exact ⟨_, rfl⟩
  have hfresh : ∀ n ∈ a ++ b ++ [add], ∀ id' v, (id', v) ∈ i3.data → ∀ m ∈ v, S.name m ≠ S.name n := by
    intro n hn id' v hv m hm heq
    rw [hdat3] at hv
    obtain ⟨hv1, hv2⟩ := List.mem_filter.1 hv
    have hv2 := of_decide_eq_true hv2
    rcases List.mem_append.1 hn with hn | hn
    · rcases List.mem_append.1 hn with hn | hn
      · exact hv2.1 (consistent_unique hc hv1 ha hm hn heq).1
      · exact hv2.2 (consistent_unique hc hv1 hb hm hn heq).1
    · obtain rfl : n = add := by simpa using hn
      exact hname id' v hv1 m hm heq
  obtain ⟨c4, dat4, pat4, man4⟩ := consistent_addOp c3 hao hfresh
  refine ⟨i4, ?_, c4, by rw [dat4, hdat3]⟩
  have hu : unique (a ++ b ++ [add]) = a ++ b ++ [add] := by
    rw [unique, unique_nodup_append (a ++ b ++ [add]) [] (by simp) (by simp) hnd]; rfl
  rw [updateWithAdd, g1]
  simp only [Option.bind_eq_bind, Option.bind_some, g2, hu]
  rw [dropOf, if_pos f1, m1]
  simp only [Option.bind_eq_bind, Option.bind_some, hr]
  rw [dropOf, if_pos f3, m3]
  simp only [Option.bind_eq_bind, Option.bind_some, hr2, hma, hao]

/-- **C80**: the padding inserted before a linear layer joins its fused operation, or forms a new one
with it; the records agree and the graph with the padding accepts the operations. The linear layer must
be the first of its operation: shift negative correction looks for it after an activation. -/
theorem C80_padding {S : Setup N P} {g g' : Gr N} {info : Info N P C} {pad op2d first : N} {e : Edge N}
    {R : List (Edge N)} {w : List N} (wf : WellFormed g) (hc : Consistent S info)
    (hacc : Accepted S g info) (hop : op2d ∈ g.nodes)
    (hcase : (∃ id, (id, w) ∈ info.data ∧ w.head? = some op2d) ∨
      ((∀ id v, (id, v) ∈ info.data → op2d ∉ v) ∧ w = [op2d]))
    (hpad : pad ∉ g.nodes) (hname : ∀ n ∈ g.nodes, S.name n ≠ S.name pad)
    (hsep : ∀ id v, (id, v) ∈ info.data → op2d ∉ v → ∀ n ∈ v, S.name n ≠ S.name op2d)
    (M : Inserted g g' pad first op2d e R) (hin : ∀ id v, (id, v) ∈ info.data → first ∉ v.dropLast)
    (hid : fusedId S (pad :: w) ∉ info.data.map Prod.fst)
    (hman : (pad :: w).map S.name ∉ info.manual) :
    ∃ info', fusePadding S info pad op2d = some info' ∧ Consistent S info' ∧ Accepted S g' info' ∧
      ∀ v, v ∈ info'.data.map Prod.snd ↔ v = pad :: w ∨ v ∈ info.data.map Prod.snd ∧ v ≠ w := by
  have hfn : first ∈ g.nodes := by
    have : e ∈ g.edges := M.split.mem_iff.2 (by simp)
    exact M.esrc ▸ wf.src e this
  have hacc' := accepted_insert hacc M hpad hin
  have hpadw : edgesFrom g' pad = [⟨pad, op2d, e.si, e.di⟩] := by
    apply inserted_new M
    · rintro rfl; exact hpad hfn
    · intro x hx heq
      exact hpad (heq ▸ wf.src x hx)
  have how : OnlyWay g' w → w.head? = some op2d → OnlyWay g' (pad :: w) := by
    intro h1 h2
    cases w with
    | nil => trivial
    | cons a w =>
      obtain rfl : a = op2d := by simpa using h2
      exact ⟨⟨_, hpadw, rfl⟩, h1⟩
  rcases hcase with ⟨id, hw, hh⟩ | ⟨hno, rfl⟩
  · have hopw : op2d ∈ w := List.mem_of_mem_head? hh
    obtain ⟨f1, m1, d1, -⟩ := gather_mem hc hw hopw
    have hr : ∃ i1, removeOp S info id = some i1 := by rw [removeOp, d1]; exact ⟨_, rfl⟩
    obtain ⟨i1, hr⟩ := hr
    obtain ⟨c1, dat1, pat1, w1, hw1, man1⟩ := consistent_removeOp hc hr
    obtain ⟨-, rfl⟩ : id = id ∧ w1 = w := by
      have := Dict.mem_get hc.keys hw1
      rw [d1] at this
      exact ⟨rfl, by simpa using this.symm⟩
    have hid1 : fusedId S (pad :: w1) ∉ i1.data.map Prod.fst := by
      rw [dat1]
      intro h
      obtain ⟨p, hp, he⟩ := List.mem_map.1 h
      exact hid (List.mem_map.2 ⟨p, (List.mem_filter.1 hp).1, he⟩)
    have hao : ∃ i2, addOp S i1 (fusedId S (pad :: w1)) (pad :: w1) = some i2 := by
      rw [addOp, if_neg (by simpa [Dict.has] using Dict.get_none.2 hid1)]; exact ⟨_, rfl⟩
    obtain ⟨i2, hao⟩ := hao
    have hfresh : ∀ n ∈ pad :: w1, ∀ id' v, (id', v) ∈ i1.data → ∀ m ∈ v, S.name m ≠ S.name n := by
      intro n hn id' v hv m hm heq
      rw [dat1] at hv
      obtain ⟨hv1, hv2⟩ := List.mem_filter.1 hv
      rcases List.mem_cons.1 hn with rfl | hn
      · exact hname m ((hacc.2 id' v hv1).1 m hm) heq
      · exact (of_decide_eq_true hv2) (consistent_unique hc hv1 hw hm hn heq).1
    obtain ⟨c2, dat2, pat2, man2⟩ := consistent_addOp c1 hao hfresh
    have hman' : (pad :: w1).map S.name ∉ i2.manual := by
      rw [man2, man1]; exact fun h => hman (List.mem_of_mem_erase h)
    have hma : ∃ i3, addManual i2 ((pad :: w1).map S.name) = some i3 := by
      rw [addManual, if_neg hman']; exact ⟨_, rfl⟩
    obtain ⟨i3, hma⟩ := hma
    obtain ⟨c3, dat3, pat3, man3⟩ := consistent_addManual c2 hma
    have hdata : i3.data = info.data.filter (fun p => decide (p.1 ≠ id)) ++
        [(fusedId S (pad :: w1), pad :: w1)] := by rw [dat3, dat2, dat1]
    refine ⟨i3, ?_, c3, ?_, ?_⟩
    · rw [fusePadding, if_pos f1, m1]
      simp only [Option.bind_eq_bind, Option.bind_some, d1, hr, Option.pure_def, hao, hma]
    · refine accepted_replace hc hacc' hw (by rintro rfl; simp at hopw) (w' := pad :: w1) (new := pad)
        (by intro n; simp [or_comm]) (fun k v hv hx => hpad ((hacc.2 k v hv).1 pad hx))
        (by rw [M.nodes]; simp) (how (hacc'.2 id w1 hw).2.1 hh) hdata (by rw [pat3, pat2, pat1]) ?_
      intro x
      rw [man3, man2, man1]
      simp
    · intro v
      rw [hdata, List.map_append, List.mem_append, List.mem_map]
      constructor
      · rintro (⟨⟨k, u⟩, hp, rfl⟩ | h)
        · obtain ⟨h1, h2⟩ := List.mem_filter.1 hp
          refine Or.inr ⟨List.mem_map.2 ⟨_, h1, rfl⟩, ?_⟩
          rintro rfl
          exact (of_decide_eq_true h2) (consistent_unique hc h1 hw hopw hopw rfl).1
        · exact Or.inl (by simpa using h)
      · rintro (rfl | ⟨h1, h2⟩)
        · right; simp
        · obtain ⟨⟨k, u⟩, hp, rfl⟩ := List.mem_map.1 h1
          refine Or.inl ⟨(k, u), List.mem_filter.2 ⟨hp, ?_⟩, rfl⟩
          have : k ≠ id := by
            rintro rfl
            have a := Dict.mem_get hc.keys hp
            rw [d1] at a
            exact h2 (by simpa using a.symm)
          simpa using this
  · have f1 : isFused info op2d = false := by
      rw [← Bool.not_eq_true]
      simp only [isFused, List.any_eq_true, decide_eq_true_eq]
      rintro ⟨⟨k, v⟩, hkv, hv⟩
      exact hno k v hkv hv
    have hao : ∃ i2, addOp S info (fusedId S [pad, op2d]) [pad, op2d] = some i2 := by
      rw [addOp, if_neg (by simpa [Dict.has] using Dict.get_none.2 hid)]; exact ⟨_, rfl⟩
    obtain ⟨i2, hao⟩ := hao
    have hfresh : ∀ n ∈ [pad, op2d], ∀ id' v, (id', v) ∈ info.data → ∀ m ∈ v, S.name m ≠ S.name n := by
      intro n hn id' v hv m hm
      rcases List.mem_cons.1 hn with rfl | hn
      · exact hname m ((hacc.2 id' v hv).1 m hm)
      · obtain rfl : n = op2d := by simpa using hn
        exact hsep id' v hv (hno id' v hv) m hm
    obtain ⟨c2, dat2, pat2, man2⟩ := consistent_addOp hc hao hfresh
    have hman' : [pad, op2d].map S.name ∉ i2.manual := by rw [man2]; exact hman
    have hma : ∃ i3, addManual i2 ([pad, op2d].map S.name) = some i3 := by
      rw [addManual, if_neg hman']; exact ⟨_, rfl⟩
    obtain ⟨i3, hma⟩ := hma
    obtain ⟨c3, dat3, pat3, man3⟩ := consistent_addManual c2 hma
    have hdata : i3.data = info.data ++ [(fusedId S [pad, op2d], [pad, op2d])] := by rw [dat3, dat2]
    refine ⟨i3, ?_, c3, ?_, ?_⟩
    · rw [fusePadding, f1]
      simp only [Bool.false_eq_true, if_false, Option.bind_eq_bind, Option.pure_def, Option.bind_some,
        hao, hma]
    · constructor
      · rw [hdata]
        refine List.pairwise_append.2 ⟨hacc.1, by simp, ?_⟩
        rintro ⟨k, v⟩ hv b hb n hn hnb
        obtain rfl : b = _ := by simpa using hb
        rcases List.mem_cons.1 hnb with rfl | hnb
        · exact hpad ((hacc.2 k v hv).1 n hn)
        · obtain rfl : n = op2d := by simpa using hnb
          exact hno k v hv hn
      · intro k v hv
        rw [hdata] at hv
        rw [man3, man2, pat3, pat2]
        rcases List.mem_append.1 hv with hv | hv
        · obtain ⟨a, b, c⟩ := hacc'.2 k v hv
          exact ⟨a, b, c.imp (fun h => List.mem_append_left _ h) (fun x => x)⟩
        · obtain ⟨rfl, rfl⟩ : k = _ ∧ v = _ := by simpa using hv
          refine ⟨?_, how trivial rfl, Or.inl (by simp)⟩
          intro n hn
          rw [M.nodes]
          rcases List.mem_cons.1 hn with rfl | hn
          · simp
          · obtain rfl : n = op2d := by simpa using hn
            exact List.mem_append_left _ hop
    · intro v
      rw [hdata, List.map_append, List.mem_append]
      constructor
      · rintro (h | h)
        · refine Or.inr ⟨h, ?_⟩
          rintro rfl
          obtain ⟨⟨k, u⟩, hp, he⟩ := List.mem_map.1 h
          exact hno k u hp (by simp only at he; rw [he]; simp)
        · exact Or.inl (by simpa using h)
      · rintro (rfl | ⟨h1, h2⟩)
        · right; simp
        · exact Or.inl h1

/-! ### Where the operations break -/

/-- Layers: 0 input, 1 addition, 2 activation, 3 convolution, 4 activation. -/
def sncSetup : Setup Nat Nat where
  name := fun n => (toString n).toList
  fits := fun l n => decide ([0, 1, 2, 3, 4][n]? = some l)

def sncGraph : Gr Nat :=
  ⟨[0, 1, 2, 3, 4], [⟨0, 1, 0, 0⟩, ⟨1, 2, 0, 0⟩, ⟨2, 3, 0, 0⟩, ⟨3, 4, 0, 0⟩], [0], [(4, 0)]⟩

/-- The only pattern fuses the convolution with its activation. -/
def sncInfo : Option (Info Nat Nat Unit) :=
  generate sncSetup sncGraph [0, 1, 2, 3, 4] [⟨[3, 4], none⟩] []

/-- **C80** fails of the code for an activation (2) that is in no fused operation, after a layer (1) that
is in none: the inserted addition (9) becomes a fused operation of its own. The graph accepts it, but
the operations can no longer be generated again, so replacing fused operations by single nodes, needed
to compute the memory of activations, raises. -/
theorem C80_unfused_violated :
    (insertAfter sncGraph 9 2).map Gr.edges = some [⟨0, 1, 0, 0⟩, ⟨1, 2, 0, 0⟩, ⟨3, 4, 0, 0⟩,
      ⟨2, 9, 0, 0⟩, ⟨9, 3, 0, 0⟩] ∧
    ((sncInfo.bind (fun i => updateWithAdd sncSetup i 1 2 9)).map (fun i => (i.data.map Prod.snd,
      (insertAfter sncGraph 9 2).map (fun g => validate sncSetup g i)))) =
      some ([[3, 4], [9]], some true) ∧
    ((sncInfo.bind (fun i => updateWithAdd sncSetup i 1 2 9)).map (fun i =>
      ((insertAfter sncGraph 9 2).bind (fun g => applyFusion sncSetup (fun _ => 100) g
        [0, 1, 2, 9, 3, 4] i)).isNone)) = some true := by
  refine ⟨by decide, by decide +kernel, by decide +kernel⟩

/-- The pattern fuses layers 0 and 1, the activation 2 after them is not fused. -/
def sncInfo' : Option (Info Nat Nat Unit) :=
  generate sncSetup sncGraph [0, 1, 2, 3, 4] [⟨[0, 1], none⟩] []

/-- **C80** fails of the code for an activation (2) that is in no fused operation, after a layer (1) that
is: the operation gets the inserted addition without the activation between them, and the next change
of the graph raises. -/
theorem C80_prev_only_violated :
    ((sncInfo'.bind (fun i => updateWithAdd sncSetup i 1 2 9)).map (fun i => (i.data.map Prod.snd,
      (insertAfter sncGraph 9 2).map (fun g => validate sncSetup g i)))) =
      some ([[0, 1, 9]], some false) := by
  decide +kernel

/-- The hypotheses of `C80_add_joined` are met: layers 0 and 1, and layers 2 and 3. -/
example : ((generate sncSetup sncGraph [0, 1, 2, 3, 4] [⟨[0, 1], (none : Option Unit)⟩, ⟨[2, 3], none⟩]
      []).bind (fun i => updateWithAdd sncSetup i 1 2 9)).map (fun i => i.data.map Prod.snd) =
    some [[0, 1, 2, 3, 9]] := by decide +kernel

/-- The hypotheses of `C80_add_partial` are met: the activation 2 closes the operation of layers 1 and
2. -/
example : ((generate sncSetup sncGraph [0, 1, 2, 3, 4] [⟨[1, 2], (none : Option Unit)⟩, ⟨[3, 4], none⟩]
      []).bind (fun i => updateWithAdd sncSetup i 1 2 9)).map (fun i => (i.data.map Prod.snd,
        (insertAfter sncGraph 9 2).map (fun g => validate sncSetup g i))) =
    some ([[3, 4], [1, 2, 9]], some true) ∧ WellFormed sncGraph ∧
    edgesFrom sncGraph 2 = [⟨2, 3, 0, 0⟩] := by
  refine ⟨by decide +kernel, wf_of_check (rank := id) (by decide), by decide⟩

end MCT.Fusing
