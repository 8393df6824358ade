/-
C120: the built models compute the graph with quantized weights and activations.
-/
import Verif.Build.Spec
import Verif.Common.Lists
import Mathlib.Data.List.Dedup
import Mathlib.Data.List.Nodup
import Mathlib.Data.List.Forall2

namespace MCT.Build

variable {V L W A : Type}

/-! ### Dictionaries -/

section dict
variable {κ α : Type} [DecidableEq κ]

theorem look_put (d : List (κ × α)) (k k' : κ) (v : α) :
    look (put d k v) k' = if k = k' then some v else look d k' := by
  unfold look put
  rw [List.find?_cons]
  by_cases h : k = k'
  · simp [h]
  · simp [h]

theorem look_put_self (d : List (κ × α)) (k : κ) (v : α) : look (put d k v) k = some v := by
  rw [look_put, if_pos rfl]

theorem look_put_ne (d : List (κ × α)) {k k' : κ} (v : α) (h : k ≠ k') : look (put d k v) k' = look d k' := by
  rw [look_put, if_neg h]

theorem look_map {β : Type} (f : β → κ) (h : β → α) : ∀ (l : List β), (l.map f).Nodup → ∀ x ∈ l,
    look (l.map fun y => (f y, h y)) (f x) = some (h x)
  | [], _, x, hx => by simp at hx
  | y :: l, hn, x, hx => by
      rw [List.map_cons, List.nodup_cons] at hn
      unfold look
      rw [List.map_cons, List.find?_cons]
      by_cases e : f y = f x
      · have : y = x := by
          rcases List.mem_cons.mp hx with h1 | h1
          · exact h1.symm
          · exact absurd (e ▸ List.mem_map_of_mem h1) hn.1
        subst this
        simp
      · have hx' : x ∈ l := by
          rcases List.mem_cons.mp hx with h1 | h1
          · exact absurd (by rw [h1]) e
          · exact h1
        simp only [e, decide_false]
        exact look_map f h l hn.2 x hx'

end dict

theorem forall₂_imp_mem {α β : Type} {R S : α → β → Prop} : ∀ {l : List α} {l' : List β}, List.Forall₂ R l l' →
    (∀ a b, a ∈ l → R a b → S a b) → List.Forall₂ S l l'
  | _, _, .nil, _ => .nil
  | _, _, .cons h t, f => .cons (f _ _ (by simp) h) (forall₂_imp_mem t fun a b ha => f a b (by simp [ha]))

/-! ### Building -/

theorem preservedFrom_some {g : Graph L W A} (hg : Ordered g) : ∀ (fuel i : ℕ), i < fuel → i < g.nodes.length →
    ∃ p ∈ g.nodes, preservedFrom g.nodes fuel i = some p
  | 0, _, h, _ => by omega
  | fuel + 1, i, h, hi => by
      obtain ⟨n, hn⟩ : ∃ n, g.nodes[i]? = some n := ⟨_, List.getElem?_eq_getElem hi⟩
      have hmem := List.mem_of_getElem? hn
      unfold preservedFrom
      rw [hn]
      dsimp only
      by_cases hp : n.preserving = true
      · rw [if_pos hp]
        obtain ⟨p, hd⟩ := hg.preserving n hmem hp
        rw [hd]
        dsimp only
        have hpm : p ∈ n.ins.map Prod.fst := by
          rw [← List.mem_dedup, hd]; simp
        obtain ⟨e, he, rfl⟩ := List.mem_map.mp hpm
        have := hg.order i n hn e he
        exact preservedFrom_some hg fuel e.1 (by omega) (by omega)
      · rw [if_neg hp]
        exact ⟨n, hmem, rfl⟩

theorem holderOf_some {g : Graph L W A} (hg : Ordered g) {n : Node L W A} (hn : n ∈ g.nodes) {a : A}
    (ha : n.act = some a) : holderOf n = some a := by
  unfold holderOf
  rw [ha]
  dsimp only
  rw [if_pos (hg.shapes n hn (by simp [ha]))]

theorem addHolder_spec {g : Graph L W A} (hg : Ordered g) (m : Mode) {i : ℕ} {n : Node L W A}
    (hn : g.nodes[i]? = some n) (b : Built L W A) :
    ∃ h, addHolder m g i n b = some { b with holders := h } ∧
      (∀ k, k ≠ n.name → look h k = look b.holders k) ∧
      (m = .exported → ∀ a, n.act = some a → look h n.name = some a) ∧
      (m ≠ .exported → h = b.holders) := by
  have hmem := List.mem_of_getElem? hn
  have hi : i < g.nodes.length := (List.getElem?_eq_some_iff.mp hn).1
  cases m with
  | float => exact ⟨b.holders, rfl, fun _ _ => rfl, by simp, fun _ => rfl⟩
  | quantized => exact ⟨b.holders, rfl, fun _ _ => rfl, by simp, fun _ => rfl⟩
  | exported =>
      unfold addHolder
      dsimp only
      cases ha : n.act with
      | some a =>
          dsimp only
          rw [holderOf_some hg hmem ha]
          refine ⟨_, rfl, fun k hk => look_put_ne _ _ (Ne.symm hk), ?_, by simp⟩
          intro _ a' ha'
          rw [look_put_self, ← ha']
      | none =>
          dsimp only
          by_cases hp : n.preserving = true
          · rw [if_pos hp]
            obtain ⟨p, hpm, hpe⟩ := preservedFrom_some hg (g.nodes.length + 1) i (by omega) hi
            rw [hpe, Option.bind_some]
            cases hpa : p.act with
            | none => exact ⟨b.holders, rfl, fun _ _ => rfl, by simp, fun _ => rfl⟩
            | some a =>
                dsimp only
                by_cases hins : g.insertPreserving = true
                · rw [if_pos hins, holderOf_some hg hpm hpa]
                  exact ⟨_, rfl, fun k hk => look_put_ne _ _ (Ne.symm hk), by simp, by simp⟩
                · rw [if_neg hins]
                  exact ⟨b.holders, rfl, fun _ _ => rfl, by simp, fun _ => rfl⟩
          · rw [if_neg hp]
            exact ⟨b.holders, rfl, fun _ _ => rfl, by simp, fun _ => rfl⟩

/-- What holds of the model under construction: `done` are the nodes that were added. -/
structure Inv (m : Mode) (g : Graph L W A) (done : Node L W A → Prop) (b : Built L W A) : Prop where
  ops : ∀ n ∈ g.nodes, done n → look b.ops n.name = some (wrap m n)
  groups : ∀ s op, look b.groups s = some op → ∃ k ∈ g.nodes, k.reuse = false ∧ k.group = some s ∧ op = wrap m k
  hasGroup : ∀ n ∈ g.nodes, done n → n.reuse = false → ∀ s, n.group = some s → look b.groups s ≠ none
  holders : m = .exported → ∀ n ∈ g.nodes, done n → ∀ a, n.act = some a → look b.holders n.name = some a
  noHolders : m ≠ .exported → b.holders = []

theorem name_inj {g : Graph L W A} (hg : Ordered g) {n k : Node L W A} (hn : n ∈ g.nodes) (hk : k ∈ g.nodes)
    (h : n.name = k.name) : n = k :=
  List.inj_on_of_nodup_map hg.names hn hk h

theorem addFirst_spec {g : Graph L W A} (hg : Ordered g) (m : Mode) : ∀ (l : List (ℕ × Node L W A))
    (done : Node L W A → Prop) (b : Built L W A), (∀ e ∈ l, g.nodes[e.1]? = some e.2) → Inv m g done b →
    ∃ b', addFirst m g l b = some b' ∧
      Inv m g (fun n => done n ∨ (n.reuse = false ∧ ∃ i, (i, n) ∈ l)) b'
  | [], done, b, _, hb => ⟨b, rfl, by simpa using hb⟩
  | (i, n) :: l, done, b, hl, hb => by
      have hn := hl (i, n) (by simp)
      have hmem := List.mem_of_getElem? hn
      unfold addFirst
      by_cases hr : n.reuse = true
      · rw [if_pos hr]
        obtain ⟨b', h1, h2⟩ := addFirst_spec hg m l done b (fun e he => hl e (by simp [he])) hb
        refine ⟨b', h1, ?_⟩
        have hd : ∀ k, (done k ∨ (k.reuse = false ∧ ∃ j, (j, k) ∈ (i, n) :: l)) →
            (done k ∨ (k.reuse = false ∧ ∃ j, (j, k) ∈ l)) := by
          rintro k (h | ⟨h3, j, h4⟩)
          · exact Or.inl h
          · rcases List.mem_cons.mp h4 with h5 | h5
            · rw [(Prod.mk.inj h5).2, hr] at h3; cases h3
            · exact Or.inr ⟨h3, j, h5⟩
        exact ⟨fun k hk h => h2.ops k hk (hd k h), h2.groups, fun k hk h => h2.hasGroup k hk (hd k h),
          fun he k hk h => h2.holders he k hk (hd k h), h2.noHolders⟩
      · rw [if_neg hr]
        have hrf : n.reuse = false := by simpa using hr
        dsimp only
        obtain ⟨h, he, hother, hown, hnone⟩ := addHolder_spec hg m (i := i) (n := n) hn { b with
          ops := put b.ops n.name (wrap m n)
          groups := setGroup n.group (wrap m n) b.groups }
        rw [he, Option.bind_some]
        have hinv : Inv m g (fun k => done k ∨ k = n) { b with
            ops := put b.ops n.name (wrap m n)
            groups := setGroup n.group (wrap m n) b.groups
            holders := h } := by
          constructor
          · intro k hk hd
            dsimp only
            by_cases hkn : k = n
            · subst hkn; rw [look_put_self]
            · have hnn : n.name ≠ k.name := fun e => hkn (name_inj hg hk hmem e.symm)
              rw [look_put_ne _ _ hnn]
              exact hb.ops k hk (hd.resolve_right hkn)
          · intro s op hs
            unfold setGroup at hs
            dsimp only at hs
            cases hgr : n.group with
            | none => rw [hgr] at hs; exact hb.groups s op hs
            | some t =>
                rw [hgr] at hs
                dsimp only at hs
                rw [look_put] at hs
                split at hs
                next e =>
                  subst e
                  exact ⟨n, hmem, hrf, hgr, (Option.some.inj hs).symm⟩
                next e => exact hb.groups s op hs
          · intro k hk hd hkr s hs
            unfold setGroup
            dsimp only
            cases hgr : n.group with
            | none =>
                dsimp only
                by_cases hkn : k = n
                · subst hkn; rw [hgr] at hs; cases hs
                · exact hb.hasGroup k hk (hd.resolve_right hkn) hkr s hs
            | some t =>
                dsimp only
                rw [look_put]
                split
                · simp
                next e =>
                  by_cases hkn : k = n
                  · subst hkn; rw [hgr] at hs; exact absurd (Option.some.inj hs) e
                  · exact hb.hasGroup k hk (hd.resolve_right hkn) hkr s hs
          · intro hm k hk hd a ha
            dsimp only
            by_cases hkn : k = n
            · subst hkn; exact hown hm a ha
            · have hnn : k.name ≠ n.name := fun e => hkn (name_inj hg hk hmem e)
              rw [hother _ hnn]
              exact hb.holders hm k hk (hd.resolve_right hkn) a ha
          · intro hm
            dsimp only
            rw [hnone hm]
            exact hb.noHolders hm
        obtain ⟨b', h1, h2⟩ := addFirst_spec hg m l _ _ (fun e he => hl e (by simp [he])) hinv
        refine ⟨b', h1, ?_⟩
        have hd : ∀ k, (done k ∨ (k.reuse = false ∧ ∃ j, (j, k) ∈ (i, n) :: l)) →
            ((done k ∨ k = n) ∨ (k.reuse = false ∧ ∃ j, (j, k) ∈ l)) := by
          rintro k (h | ⟨h3, j, h4⟩)
          · exact Or.inl (Or.inl h)
          · rcases List.mem_cons.mp h4 with h5 | h5
            · exact Or.inl (Or.inr (Prod.mk.inj h5).2)
            · exact Or.inr ⟨h3, j, h5⟩
        exact ⟨fun k hk h => h2.ops k hk (hd k h), h2.groups, fun k hk h => h2.hasGroup k hk (hd k h),
          fun he k hk h => h2.holders he k hk (hd k h), h2.noHolders⟩

theorem addReused_spec {g : Graph L W A} (hg : Ordered g) (hr : GroupsAgree g) (m : Mode) :
    ∀ (l : List (ℕ × Node L W A)) (done : Node L W A → Prop) (b : Built L W A),
      (∀ e ∈ l, g.nodes[e.1]? = some e.2) → (∀ n ∈ g.nodes, n.reuse = false → done n) → Inv m g done b →
      ∃ b', addReused m g l b = some b' ∧ Inv m g (fun n => done n ∨ ∃ i, (i, n) ∈ l) b'
  | [], done, b, _, _, hb => ⟨b, rfl, by simpa using hb⟩
  | (i, n) :: l, done, b, hl, hfirst, hb => by
      have hn := hl (i, n) (by simp)
      have hmem := List.mem_of_getElem? hn
      unfold addReused
      by_cases hru : n.reuse = true
      · rw [if_pos hru]
        obtain ⟨s, hs, ⟨k0, hk0, hk0r, hk0s⟩, hall⟩ := hr n hmem hru
        rw [hs]
        dsimp only
        obtain ⟨op, hop⟩ : ∃ op, look b.groups s = some op :=
          Option.ne_none_iff_exists'.mp (hb.hasGroup k0 hk0 (hfirst k0 hk0 hk0r) hk0r s hk0s)
        rw [hop, Option.bind_some]
        obtain ⟨k1, hk1, hk1r, hk1s, rfl⟩ := hb.groups s op hop
        have hsame := hall k1 hk1 hk1r hk1s
        have hw : wrap m k1 = wrap m n := by
          unfold wrap
          cases m <;> simp [hsame.1, hsame.2]
        rw [hw]
        obtain ⟨h, he, hother, hown, hnone⟩ := addHolder_spec hg m (i := i) (n := n) hn { b with ops := put b.ops n.name (wrap m n) }
        rw [he, Option.bind_some]
        have hinv : Inv m g (fun k => done k ∨ k = n) { b with
            ops := put b.ops n.name (wrap m n), holders := h } := by
          constructor
          · intro k hk hd
            dsimp only
            by_cases hkn : k = n
            · subst hkn; rw [look_put_self]
            · have hnn : n.name ≠ k.name := fun e => hkn (name_inj hg hk hmem e.symm)
              rw [look_put_ne _ _ hnn]
              exact hb.ops k hk (hd.resolve_right hkn)
          · exact hb.groups
          · intro k hk hd hkr t ht
            by_cases hkn : k = n
            · subst hkn; rw [hru] at hkr; cases hkr
            · exact hb.hasGroup k hk (hd.resolve_right hkn) hkr t ht
          · intro hm k hk hd a ha
            dsimp only
            by_cases hkn : k = n
            · subst hkn; exact hown hm a ha
            · have hnn : k.name ≠ n.name := fun e => hkn (name_inj hg hk hmem e)
              rw [hother _ hnn]
              exact hb.holders hm k hk (hd.resolve_right hkn) a ha
          · intro hm
            dsimp only
            rw [hnone hm]
            exact hb.noHolders hm
        obtain ⟨b', h1, h2⟩ := addReused_spec hg hr m l _ _ (fun e he => hl e (by simp [he]))
          (fun k hk hkr => Or.inl (hfirst k hk hkr)) hinv
        refine ⟨b', h1, ?_⟩
        have hd : ∀ k, (done k ∨ ∃ j, (j, k) ∈ (i, n) :: l) → ((done k ∨ k = n) ∨ ∃ j, (j, k) ∈ l) := by
          rintro k (h | ⟨j, h4⟩)
          · exact Or.inl (Or.inl h)
          · rcases List.mem_cons.mp h4 with h5 | h5
            · exact Or.inl (Or.inr (Prod.mk.inj h5).2)
            · exact Or.inr ⟨j, h5⟩
        exact ⟨fun k hk h => h2.ops k hk (hd k h), h2.groups, fun k hk h => h2.hasGroup k hk (hd k h),
          fun he k hk h => h2.holders he k hk (hd k h), h2.noHolders⟩
      · rw [if_neg hru]
        have hrf : n.reuse = false := by simpa using hru
        obtain ⟨b', h1, h2⟩ := addReused_spec hg hr m l done b (fun e he => hl e (by simp [he])) hfirst hb
        refine ⟨b', h1, ?_⟩
        have hd : ∀ k, (done k ∨ ∃ j, (j, k) ∈ (i, n) :: l) → (done k ∨ ∃ j, (j, k) ∈ l) := by
          rintro k (h | ⟨j, h4⟩)
          · exact Or.inl h
          · rcases List.mem_cons.mp h4 with h5 | h5
            · rw [(Prod.mk.inj h5).2]; exact Or.inl (hfirst n hmem hrf)
            · exact Or.inr ⟨j, h5⟩
        exact ⟨fun k hk h => h2.ops k hk (hd k h), h2.groups, fun k hk h => h2.hasGroup k hk (hd k h),
          fun he k hk h => h2.holders he k hk (hd k h), h2.noHolders⟩

theorem mem_numbered {g : Graph L W A} {e : ℕ × Node L W A} : e ∈ numbered g ↔ g.nodes[e.1]? = some e.2 := by
  unfold numbered
  rw [List.mem_map]
  constructor
  · rintro ⟨p, hp, rfl⟩
    rw [List.mem_zipIdx_iff_getElem?] at hp
    exact hp
  · intro h
    exact ⟨(e.2, e.1), List.mem_zipIdx_iff_getElem?.mpr h, rfl⟩

theorem build_spec {g : Graph L W A} (hg : Ordered g) (hr : GroupsAgree g) (m : Mode) :
    ∃ b, build m g = some b ∧ (∀ n ∈ g.nodes, look b.ops n.name = some (wrap m n)) ∧
      (m = .exported → ∀ n ∈ g.nodes, ∀ a, n.act = some a → look b.holders n.name = some a) ∧
      (m ≠ .exported → b.holders = []) := by
  have h0 : Inv m g (fun _ => False) ⟨[], [], []⟩ :=
    ⟨fun _ _ h => h.elim, fun s op h => by simp [look] at h, fun _ _ h => h.elim, fun _ _ _ h => h.elim,
      fun _ => rfl⟩
  have hl : ∀ e ∈ numbered g, g.nodes[e.1]? = some e.2 := fun e he => mem_numbered.mp he
  obtain ⟨b1, h1, i1⟩ := addFirst_spec hg m (numbered g) _ _ hl h0
  have hall : ∀ n ∈ g.nodes, ∃ i, (i, n) ∈ numbered g := by
    intro n hn
    obtain ⟨i, hi, e⟩ := List.getElem_of_mem hn
    exact ⟨i, mem_numbered.mpr (by rw [List.getElem?_eq_getElem hi, e])⟩
  obtain ⟨b2, h2, i2⟩ := addReused_spec hg hr m (numbered g) _ b1 hl
    (fun n hn hnr => Or.inr ⟨hnr, hall n hn⟩) i1
  refine ⟨b2, ?_, fun n hn => i2.ops n hn (Or.inr (hall n hn)),
    fun hm n hn => i2.holders hm n hn (Or.inr (hall n hn)), i2.noHolders⟩
  unfold build
  rw [h1, Option.bind_some, h2]

/-! ### Running -/

theorem idxOf_of_get {l : List ℕ} (hn : l.Nodup) {k i : ℕ} (h : l[k]? = some i) : i ∈ l ∧ l.idxOf i = k := by
  obtain ⟨hk, rfl⟩ := List.getElem?_eq_some_iff.mp h
  exact ⟨List.getElem_mem hk, hn.idxOf_getElem k hk⟩

/-- The tensors of the first `i` nodes. -/
def prefixEnv (val : ℕ → V) (i : ℕ) : List (List V) := (List.range i).map fun j => [val j]

theorem prefixEnv_get (val : ℕ → V) {i j : ℕ} (h : j < i) : (prefixEnv val i)[j]? = some [val j] := by
  simp [prefixEnv, h]

theorem prefixEnv_succ (val : ℕ → V) (i : ℕ) : prefixEnv val (i + 1) = prefixEnv val i ++ [[val i]] := by
  simp [prefixEnv, List.range_succ]

theorem forwardFrom_spec (sem : Sem V L W A) (float : W) (m : Mode) {g : Graph L W A} (hg : Ordered g)
    (b : Built L W A) (hops : ∀ n ∈ g.nodes, look b.ops n.name = some (wrap m n))
    (hhold : m = .exported → ∀ n ∈ g.nodes, ∀ a, n.act = some a → look b.holders n.name = some a)
    (hno : m ≠ .exported → b.holders = []) (xs : List V) (fl val : ℕ → V)
    (hc : Computes sem float m g xs fl val) :
    ∀ (l : List (Node L W A)) (i : ℕ), g.nodes.drop i = l → i + l.length = g.nodes.length →
      forwardFrom sem float m g b xs i l (prefixEnv val i) (prefixEnv fl i) =
        some (prefixEnv val g.nodes.length, prefixEnv fl g.nodes.length)
  | [], i, _, hi => by
      rw [List.length_nil, Nat.add_zero] at hi
      rw [hi]; rfl
  | n :: l, i, hd, hi => by
      have hn : g.nodes[i]? = some n := by
        rw [← List.head?_drop, hd]; rfl
      have hmem := List.mem_of_getElem? hn
      unfold forwardFrom
      rw [hops n hmem, Option.bind_some]
      obtain ⟨ins, hins, hrun, hval⟩ := hc i n hn
      have hin : inputTensors g xs (prefixEnv val i) i n = some ins := by
        unfold inputTensors
        rcases hins with ⟨k, x, hk, hx, rfl⟩ | ⟨hni, rfl⟩
        · obtain ⟨h1, h2⟩ := idxOf_of_get hg.inputs hk
          rw [if_pos h1, h2, hx]; rfl
        · rw [if_neg hni]
          have : n.ins.mapM (fun e => (prefixEnv val i)[e.1]?) = some (n.ins.map fun e => [val e.1]) := by
            rw [Common.mapM_some_iff, List.forall₂_map_right_iff, List.forall₂_same]
            intro e he
            exact prefixEnv_get val (hg.order i n hn e he)
          rw [this, Option.map_some]
          congr 1
          induction n.ins with
          | nil => rfl
          | cons e t ih => simp [ih]
      rw [hin, Option.bind_some]
      have hro : runOp sem float (wrap m n) ins = some (.one (fl i)) := by
        rw [← hrun]
        unfold runOp wrap weightsIn
        cases m <;> rfl
      rw [hro, Option.bind_some]
      dsimp only
      have hq : quantizeOut sem m b n (.one (fl i)) = ([val i], [fl i]) := by
        unfold quantizeOut
        rw [hval]
        cases ha : n.act with
        | none => cases m <;> simp [quantIn, ha, Out.tensors]
        | some a =>
            dsimp only
            cases m with
            | exported =>
                rw [hhold rfl n hmem a ha]
                simp [quantIn, ha]
            | float =>
                rw [hno (by simp)]
                simp [look, quantIn]
            | quantized =>
                rw [hno (by simp)]
                simp [look, quantIn, ha]
      rw [hq]
      dsimp only
      rw [← prefixEnv_succ, ← prefixEnv_succ]
      apply forwardFrom_spec sem float m hg b hops hhold hno xs fl val hc l (i + 1)
      · rw [← List.tail_drop, hd]; rfl
      · rw [List.length_cons] at hi; omega

theorem findIdx_name {g : Graph L W A} (hg : Ordered g) {i : ℕ} {n : Node L W A} (hn : g.nodes[i]? = some n) :
    (g.nodes.findIdx fun k => decide (k.name = n.name)) = i := by
  obtain ⟨hi, e⟩ := List.getElem?_eq_some_iff.mp hn
  rw [List.findIdx_eq hi]
  refine ⟨by simp [e], ?_⟩
  intro j hj
  simp only [decide_eq_false_iff_not]
  intro h
  have hm : (g.nodes.map fun k => k.name)[j]'(by simp; omega) = (g.nodes.map fun k => k.name)[i]'(by simpa) := by
    simp [h, e]
  have := hg.names.getElem_inj_iff.mp hm
  omega

/-- **C120** (PyTorch).  For every graph whose layers return one tensor, in every mode: the model can be built, and
it returns for every output the tensor that the graph computes when every layer runs with its own weights,
quantized as configured in the exported model and float otherwise, on the quantized outputs of its sources, and
its output is quantized once, by the quantizer of its own configuration, exactly if quantization of its
activations is enabled (never in the float model).  With `return_float_outputs` the tensors before the last
quantization are returned. -/
theorem C120_torch (sem : Sem V L W A) (float : W) (m : Mode) (returnFloat : Bool) (g : Graph L W A)
    (hg : Ordered g) (hr : GroupsAgree g) (xs : List V) (fl val : ℕ → V)
    (hc : Computes sem float m g xs fl val) :
    forward sem float m returnFloat g xs =
      some (g.outputs.map fun o => .one (if returnFloat then fl o.1 else val o.1)) := by
  obtain ⟨b, hb, hops, hhold, hno⟩ := build_spec hg hr m
  have hf := forwardFrom_spec sem float m hg b hops hhold hno xs fl val hc g.nodes 0 (by simp) (by simp)
  unfold forward
  rw [hb, Option.bind_some]
  change ((forwardFrom sem float m g b xs 0 g.nodes (prefixEnv val 0) (prefixEnv fl 0)).bind _) = _
  rw [hf, Option.bind_some]
  have key : ∀ v : ℕ → V, (g.outputs.mapM fun o => outputOf g (prefixEnv v g.nodes.length) o.1) =
      some (g.outputs.map fun o => [Out.one (v o.1)]) := by
    intro v
    rw [Common.mapM_some_iff, List.forall₂_map_right_iff, List.forall₂_same]
    intro o ho
    have hlt := hg.outputs o ho
    obtain ⟨n, hn⟩ : ∃ n, g.nodes[o.1]? = some n := ⟨_, List.getElem?_eq_getElem hlt⟩
    unfold outputOf
    rw [hn, Option.bind_some, findIdx_name hg hn, prefixEnv_get v hlt]
    simp
  have flat : ∀ v : ℕ → V, (g.outputs.map fun o => [Out.one (v o.1)]).flatten =
      g.outputs.map fun o => Out.one (v o.1) := by
    intro v
    induction g.outputs with
    | nil => rfl
    | cons o t ih => simp [ih]
  cases returnFloat
  · simp only [Bool.false_eq_true, if_false]
    rw [key val, Option.map_some, flat]
  · simp only [if_true]
    rw [key fl, Option.map_some, flat]

/-- A toy: a layer adds its number and the sum of its inputs, times the scale of its weights; a quantizer rounds
down to multiples. -/
def toy : Sem Int Int Int Int where
  run := fun l w ins => some (.one (w * (l + ins.sum)))
  quant := fun a v => v / a * a
  cat := List.sum

/-- Two inputs and a layer that is used twice. -/
def toyGraph : Graph Int Int Int where
  nodes := [⟨["x"], [], 0, 1, none, false, some 2, 1, false⟩, ⟨["y"], [], 0, 1, none, false, none, 1, false⟩,
    ⟨["f"], [(0, 0), (1, 0)], 5, 3, some "g", false, some 10, 1, false⟩,
    ⟨["v"], [(2, 0)], 1, 1, none, false, none, 1, true⟩,
    ⟨["f", "reuse", "1"], [(3, 0), (0, 0)], 5, 3, some "g", true, some 7, 1, false⟩]
  inputs := [1, 0]
  outputs := [(4, 0), (2, 0)]
  insertPreserving := true

theorem toy_ordered : Ordered toyGraph where
  names := by decide
  order := by
    intro i n h
    match i with
    | 0 | 1 | 2 | 3 | 4 => simp [toyGraph] at h; subst h; simp
    | i + 5 => simp [toyGraph] at h
  inputs := by decide
  shapes := by simp [toyGraph]
  preserving := by
    intro n hn hp
    simp only [toyGraph, List.mem_cons, List.not_mem_nil, or_false] at hn
    rcases hn with rfl | rfl | rfl | rfl | rfl <;> simp_all
  outputs := by simp [toyGraph]

theorem toy_groups : GroupsAgree toyGraph := by
  intro n hn hr
  simp only [toyGraph, List.mem_cons, List.not_mem_nil, or_false] at hn
  rcases hn with rfl | rfl | rfl | rfl | rfl <;> simp_all [toyGraph]

example : Computes toy 1 .exported toyGraph [4, 7] (fun i => [7, 4, 45, 41, 156].getD i 0)
    (fun i => [6, 4, 40, 41, 154].getD i 0) := by
  intro i n h
  match i with
  | 0 => simp [toyGraph] at h; subst h
         exact ⟨[7], Or.inl ⟨1, 7, rfl, rfl, rfl⟩, rfl, rfl⟩
  | 1 => simp [toyGraph] at h; subst h
         exact ⟨[4], Or.inl ⟨0, 4, rfl, rfl, rfl⟩, rfl, rfl⟩
  | 2 => simp [toyGraph] at h; subst h
         exact ⟨[6, 4], Or.inr ⟨by simp [toyGraph], rfl⟩, rfl, rfl⟩
  | 3 => simp [toyGraph] at h; subst h
         exact ⟨[40], Or.inr ⟨by simp [toyGraph], rfl⟩, rfl, rfl⟩
  | 4 => simp [toyGraph] at h; subst h
         exact ⟨[41, 6], Or.inr ⟨by simp [toyGraph], rfl⟩, rfl, rfl⟩
  | i + 5 => simp [toyGraph] at h

example : forward toy 1 .exported false toyGraph [4, 7] = some [.one 154, .one 40] := by decide +kernel
example : forward toy 1 .exported true toyGraph [4, 7] = some [.one 156, .one 45] := by decide +kernel

/-- **C120** (preserving nodes).  `insert_preserving_quantizers` does not change what the model computes: the
holders it adds are never called. -/
theorem C120_preserving_unused (sem : Sem V L W A) (float : W) (m : Mode) (returnFloat : Bool) (g : Graph L W A)
    (hg : Ordered g) (hr : GroupsAgree g) (xs : List V) (fl val : ℕ → V)
    (hc : Computes sem float m g xs fl val) (p : Bool) :
    forward sem float m returnFloat { g with insertPreserving := p } xs = forward sem float m returnFloat g xs := by
  rw [C120_torch sem float m returnFloat g hg hr xs fl val hc,
    C120_torch sem float m returnFloat { g with insertPreserving := p }
      ⟨hg.names, hg.order, hg.inputs, hg.shapes, hg.preserving, hg.outputs⟩ hr xs fl val hc]

theorem addHolder_none (g : Graph L W A) (i : ℕ) {n : Node L W A} (ha : n.act ≠ none) (ho : n.outs ≠ 1)
    (b : Built L W A) : addHolder .exported g i n b = none := by
  unfold addHolder
  dsimp only
  cases h : n.act with
  | none => exact absurd h ha
  | some a =>
      dsimp only
      unfold holderOf
      rw [h]
      dsimp only
      rw [if_neg ho]; rfl

theorem addFirst_none (g : Graph L W A) {n : Node L W A} (ha : n.act ≠ none) (ho : n.outs ≠ 1)
    (hr : n.reuse = false) : ∀ (l : List (ℕ × Node L W A)) (b : Built L W A), (∃ i, (i, n) ∈ l) →
    addFirst .exported g l b = none
  | [], b, h => by simp at h
  | (j, k) :: l, b, h => by
      unfold addFirst
      by_cases e : k = n
      · subst e
        rw [if_neg (by simp [hr])]
        dsimp only
        rw [addHolder_none g j ha ho]; rfl
      · have h' : ∃ i, (i, n) ∈ l := by
          obtain ⟨i, hi⟩ := h
          rcases List.mem_cons.mp hi with h1 | h1
          · exact absurd (Prod.mk.inj h1).2.symm e
          · exact ⟨i, h1⟩
        split
        · exact addFirst_none g ha ho hr l b h'
        · dsimp only
          rw [Option.bind_eq_none_iff]
          intro b' _
          exact addFirst_none g ha ho hr l b' h'

theorem addReused_none (g : Graph L W A) {n : Node L W A} (ha : n.act ≠ none) (ho : n.outs ≠ 1)
    (hr : n.reuse = true) : ∀ (l : List (ℕ × Node L W A)) (b : Built L W A), (∃ i, (i, n) ∈ l) →
    addReused .exported g l b = none
  | [], b, h => by simp at h
  | (j, k) :: l, b, h => by
      unfold addReused
      by_cases e : k = n
      · subst e
        rw [if_pos hr]
        cases k.group with
        | none => rfl
        | some s =>
            dsimp only
            rw [Option.bind_eq_none_iff]
            intro op _
            rw [addHolder_none g j ha ho]; rfl
      · have h' : ∃ i, (i, n) ∈ l := by
          obtain ⟨i, hi⟩ := h
          rcases List.mem_cons.mp hi with h1 | h1
          · exact absurd (Prod.mk.inj h1).2.symm e
          · exact ⟨i, h1⟩
        split
        · cases k.group with
          | none => rfl
          | some s =>
              dsimp only
              rw [Option.bind_eq_none_iff]
              intro op _
              rw [Option.bind_eq_none_iff]
              intro b' _
              exact addReused_none g ha ho hr l b' h'
        · exact addReused_none g ha ho hr l b h'

/-- **C120** (limit).  No model with a quantized node of several outputs (or of none) can be exported. -/
theorem C120_many_outputs_violated (sem : Sem V L W A) (float : W) (rf : Bool) (g : Graph L W A) (xs : List V)
    (h : ∃ n ∈ g.nodes, n.act ≠ none ∧ n.outs ≠ 1) : forward sem float .exported rf g xs = none := by
  obtain ⟨n, hn, ha, ho⟩ := h
  have hi : ∃ i, (i, n) ∈ numbered g := by
    obtain ⟨i, hi, e⟩ := List.getElem_of_mem hn
    exact ⟨i, mem_numbered.mpr (by rw [List.getElem?_eq_getElem hi, e])⟩
  have hb : build .exported g = none := by
    unfold build
    cases hr : n.reuse with
    | false => rw [addFirst_none g ha ho hr _ _ hi]; rfl
    | true =>
        rw [Option.bind_eq_none_iff]
        intro b _
        exact addReused_none g ha ho hr _ _ hi
  unfold forward
  rw [hb]; rfl

/-- **C120** (violation).  A reused layer whose quantization differs from that of the first node of its group runs
with the weights of the first: here the second use has weights `1` and runs with `2`. -/
theorem C120_shared_weights_violated :
    ∃ (g : Graph Int Int Int), Ordered g ∧ Computes toy 1 .exported g [3] (fun i => [3, 6, 6].getD i 0)
        (fun i => [3, 6, 6].getD i 0) ∧
      forward toy 1 .exported false g [3] = some [.one 12] ∧ kerasForward toy g [3] = some [12] ∧
      g.outputs = [(2, 0)] := by
  refine ⟨⟨[⟨["x"], [], 0, 1, none, false, none, 1, false⟩, ⟨["f"], [(0, 0)], 0, 2, some "g", false, none, 1, false⟩,
    ⟨["f", "reuse", "1"], [(1, 0)], 0, 1, some "g", true, none, 1, false⟩], [0], [(2, 0)], false⟩,
    ⟨by decide, ?_, by decide, by simp, by simp, by simp⟩, ?_, by decide +kernel, by decide +kernel, rfl⟩
  · intro i n h
    match i with
    | 0 | 1 | 2 => simp at h; subst h; simp
    | i + 3 => simp at h
  · intro i n h
    match i with
    | 0 => simp at h; subst h
           exact ⟨[3], Or.inl ⟨0, 3, rfl, rfl, rfl⟩, rfl, rfl⟩
    | 1 => simp at h; subst h
           exact ⟨[3], Or.inr ⟨by simp, rfl⟩, rfl, rfl⟩
    | 2 => simp at h; subst h
           exact ⟨[6], Or.inr ⟨by simp, rfl⟩, rfl, rfl⟩
    | i + 3 => simp at h

/-- A layer that returns two tensors: the input and the input plus one. -/
def twin : Sem Int Bool Unit Unit where
  run := fun l _ ins => some (if l then .list [ins.sum, ins.sum + 1] else .one ins.sum)
  quant := fun _ v => v
  cat := List.sum

/-- **C120** (violation).  In PyTorch a layer that uses one tensor of a list gets them all: source index and
output index are not read.  Keras computes the graph. -/
theorem C120_source_index_violated :
    ∃ (g : Graph Bool Unit Unit), Ordered g ∧ GroupsAgree g ∧
      kerasForward twin g [3] = some [4, 4] ∧
      forward twin () .exported false g [3] = some [.one 7, .list [3, 4]] := by
  refine ⟨⟨[⟨["x"], [], false, (), none, false, none, 1, false⟩,
    ⟨["f"], [(0, 0)], true, (), none, false, none, 2, false⟩,
    ⟨["h"], [(1, 1)], false, (), none, false, none, 1, false⟩], [0], [(2, 0), (1, 1)], false⟩,
    ⟨by decide, ?_, by decide, by simp, by simp, by simp⟩, ?_, ?_, ?_⟩
  · intro i n h
    match i with
    | 0 | 1 | 2 => simp at h; subst h; simp
    | i + 3 => simp at h
  · intro n hn hr
    simp at hn
    rcases hn with rfl | rfl | rfl <;> simp at hr
  · decide +kernel
  · decide +kernel

/-! ### Keras -/

theorem kerasOp_spec {g : Graph L W A} (hg : Ordered g) (hr : NamesAgree g) {n : Node L W A} (hn : n ∈ g.nodes) :
    kerasOp g n = some (n.layer, n.weights) := by
  unfold kerasOp
  by_cases h : n.reuse = true
  · rw [if_pos h]
    obtain ⟨k, hk, hkr, ⟨p, q, hname⟩, hl, hw⟩ := hr n hn h
    have e : n.name.dropLast.dropLast = k.name := by
      rw [hname]
      have : k.name ++ [p, q] = (k.name ++ [p]) ++ [q] := by simp
      rw [this, List.dropLast_concat, List.dropLast_concat]
    rw [e, ← hl, ← hw]
    unfold kerasOps
    refine look_map (fun n : Node L W A => n.name) (fun n => (n.layer, n.weights)) _ ?_ k ?_
    · exact hg.names.sublist (List.filter_sublist.map _)
    · exact List.mem_filter.mpr ⟨hk, by simp [hkr]⟩
  · rw [if_neg h]

/-- The tensors of the first `i` nodes. -/
def prefixAll (vals : ℕ → List V) (i : ℕ) : List (List V) := (List.range i).map vals

theorem prefixAll_get (vals : ℕ → List V) {i j : ℕ} (h : j < i) : (prefixAll vals i)[j]? = some (vals j) := by
  simp [prefixAll, h]

theorem kerasFrom_spec (sem : Sem V L W A) {g : Graph L W A} (hg : Ordered g) (hr : NamesAgree g) (xs : List V)
    (vals : ℕ → List V) (hc : ComputesAll sem g xs vals) :
    ∀ (l : List (Node L W A)) (i : ℕ), g.nodes.drop i = l → i + l.length = g.nodes.length →
      kerasFrom sem g xs i l (prefixAll vals i) = some (prefixAll vals g.nodes.length)
  | [], i, _, hi => by
      rw [List.length_nil, Nat.add_zero] at hi
      rw [hi]; rfl
  | n :: l, i, hd, hi => by
      have hn : g.nodes[i]? = some n := by
        rw [← List.head?_drop, hd]; rfl
      have hmem := List.mem_of_getElem? hn
      have hrest : kerasFrom sem g xs (i + 1) l (prefixAll vals i ++ [vals i]) =
          some (prefixAll vals g.nodes.length) := by
        have : prefixAll vals i ++ [vals i] = prefixAll vals (i + 1) := by simp [prefixAll, List.range_succ]
        rw [this]
        apply kerasFrom_spec sem hg hr xs vals hc l (i + 1)
        · rw [← List.tail_drop, hd]; rfl
        · rw [List.length_cons] at hi; omega
      unfold kerasFrom
      rcases hc i n hn with ⟨k, x, hins, hk, hx, hv⟩ | ⟨hins, ins, o, hF, hrun, hv⟩
      · rw [if_pos hins]
        obtain ⟨h1, h2⟩ := idxOf_of_get hg.inputs hk
        rw [if_pos h1, h2, hx, Option.bind_some]
        have hq : kerasQuantize sem n (.one x) = some (.one (quantIn sem .exported n x)) := by
          unfold kerasQuantize quantIn
          cases ha : n.act with
          | none => rfl
          | some a =>
              dsimp only
              rw [holderOf_some hg hmem ha]; rfl
        rw [hq, Option.bind_some]
        change kerasFrom sem g xs (i + 1) l (prefixAll vals i ++ [[quantIn sem .exported n x]]) = _
        rw [← hv]; exact hrest
      · rw [if_neg hins, kerasOp_spec hg hr hmem, Option.bind_some]
        have hin : kerasInputs (prefixAll vals i) n = some ins := by
          unfold kerasInputs
          rw [Common.mapM_some_iff]
          refine forall₂_imp_mem hF ?_
          intro e v he hev
          rw [prefixAll_get vals (hg.order i n hn e he), Option.bind_some]
          exact hev
        rw [hin, Option.bind_some]
        dsimp only
        rw [hrun, Option.bind_some]
        rcases hv with ⟨ha, hv⟩ | ⟨a, v, ha, rfl, hv⟩
        · have hq : kerasQuantize sem n o = some o := by
            unfold kerasQuantize; rw [ha]
          rw [hq, Option.bind_some, ← hv]; exact hrest
        · have hq : kerasQuantize sem n (.one v) = some (.one (sem.quant a v)) := by
            unfold kerasQuantize
            rw [ha]
            dsimp only
            rw [holderOf_some hg hmem ha]; rfl
          rw [hq, Option.bind_some]
          change kerasFrom sem g xs (i + 1) l (prefixAll vals i ++ [[sem.quant a v]]) = _
          rw [← hv]; exact hrest

/-- **C120** (Keras).  For every graph, with layers that return any number of tensors: the exported model returns
the requested tensor of every output node, computed by the layers with their own quantized weights on the
quantized tensors of their sources (by source index), with the outputs quantized by their own quantizers. -/
theorem C120_keras (sem : Sem V L W A) (g : Graph L W A) (hg : Ordered g) (hr : NamesAgree g) (xs : List V)
    (vals : ℕ → List V) (hc : ComputesAll sem g xs vals) (outs : List V)
    (ho : List.Forall₂ (fun (o : ℕ × ℕ) v => (vals o.1)[o.2]? = some v) g.outputs outs) :
    kerasForward sem g xs = some outs := by
  have hf := kerasFrom_spec sem hg hr xs vals hc g.nodes 0 (by simp) (by simp)
  unfold kerasForward
  change ((kerasFrom sem g xs 0 g.nodes (prefixAll vals 0)).bind _) = _
  rw [hf, Option.bind_some, Common.mapM_some_iff]
  refine forall₂_imp_mem ho ?_
  intro o v hom hov
  have hlt := hg.outputs o hom
  obtain ⟨n, hn⟩ : ∃ n, g.nodes[o.1]? = some n := ⟨_, List.getElem?_eq_getElem hlt⟩
  rw [hn, Option.bind_some]
  have hz : (g.nodes.map fun k => k.name).zip (prefixAll vals g.nodes.length) =
      (numbered g).map fun e => (e.2.name, vals e.1) := by
    apply List.ext_getElem
    · simp [prefixAll, numbered]
    · intro j h1 h2
      simp [prefixAll, numbered]
  have hnd : (((numbered g).reverse).map fun e => e.2.name).Nodup := by
    have : ((numbered g).map fun e => e.2.name) = g.nodes.map fun k => k.name := by
      apply List.ext_getElem
      · simp [numbered]
      · intro j h1 h2
        simp [numbered]
    rw [List.map_reverse, List.nodup_reverse, this]
    exact hg.names
  rw [hz, ← List.map_reverse]
  have := look_map (fun e : ℕ × Node L W A => e.2.name) (fun e => vals e.1) (numbered g).reverse hnd (o.1, n)
    (by rw [List.mem_reverse]; exact mem_numbered.mpr hn)
  dsimp only at this
  rw [this, Option.bind_some]
  exact hov

theorem toy_names : NamesAgree toyGraph := by
  intro n hn hr
  simp only [toyGraph, List.mem_cons, List.not_mem_nil, or_false] at hn
  rcases hn with rfl | rfl | rfl | rfl | rfl <;> simp_all [toyGraph]

example : ComputesAll toy toyGraph [4, 7] (fun i => [[6], [4], [40], [41], [154]].getD i []) := by
  intro i n h
  match i with
  | 0 => simp [toyGraph] at h; subst h
         exact Or.inl ⟨1, 7, rfl, rfl, rfl, rfl⟩
  | 1 => simp [toyGraph] at h; subst h
         exact Or.inl ⟨0, 4, rfl, rfl, rfl, rfl⟩
  | 2 => simp [toyGraph] at h; subst h
         exact Or.inr ⟨by simp, [6, 4], .one 45, by simp, rfl, Or.inr ⟨10, 45, rfl, rfl, rfl⟩⟩
  | 3 => simp [toyGraph] at h; subst h
         exact Or.inr ⟨by simp, [40], .one 41, by simp, rfl, Or.inl ⟨rfl, rfl⟩⟩
  | 4 => simp [toyGraph] at h; subst h
         exact Or.inr ⟨by simp, [41, 6], .one 156, by simp, rfl, Or.inr ⟨7, 156, rfl, rfl, rfl⟩⟩
  | i + 5 => simp [toyGraph] at h

example : kerasForward toy toyGraph [4, 7] = some [154, 40] := by decide +kernel

theorem kerasFrom_none (sem : Sem V L W A) (g : Graph L W A) (xs : List V) {n : Node L W A} (hi : n.ins ≠ [])
    (ho : kerasOp g n = none) : ∀ (l : List (Node L W A)) (i : ℕ) (env : List (List V)), n ∈ l →
    kerasFrom sem g xs i l env = none
  | [], _, _, h => by simp at h
  | k :: l, i, env, h => by
      unfold kerasFrom
      by_cases e : k = n
      · subst e
        rw [if_neg hi, ho]; rfl
      · have h' : n ∈ l := (List.mem_cons.mp h).resolve_left fun h1 => e h1.symm
        split
        · rw [Option.bind_eq_none_iff]
          intro x _
          rw [Option.bind_eq_none_iff]
          intro q _
          exact kerasFrom_none sem g xs hi ho l _ _ h'
        · rw [Option.bind_eq_none_iff]
          intro op _
          rw [Option.bind_eq_none_iff]
          intro ins _
          rw [Option.bind_eq_none_iff]
          intro o _
          rw [Option.bind_eq_none_iff]
          intro q _
          exact kerasFrom_none sem g xs hi ho l _ _ h'

/-- **C120** (limit, Keras).  The layer of a reused node is looked up by the name of the node without its last
two parts: if no first use has that name, no model can be built. -/
theorem C120_keras_name (sem : Sem V L W A) (g : Graph L W A) (xs : List V) (n : Node L W A)
    (hn : n ∈ g.nodes) (hr : n.reuse = true) (hi : n.ins ≠ [])
    (hno : ∀ k ∈ g.nodes, k.reuse = false → k.name ≠ n.name.dropLast.dropLast) : kerasForward sem g xs = none := by
  have ho : kerasOp g n = none := by
    unfold kerasOp
    rw [if_pos hr]
    unfold look kerasOps
    rw [Option.map_eq_none_iff, List.find?_eq_none]
    intro e he
    obtain ⟨k, hk, rfl⟩ := List.mem_map.mp he
    obtain ⟨hk1, hk2⟩ := List.mem_filter.mp hk
    simpa using hno k hk1 (by simpa using hk2)
  unfold kerasForward
  rw [kerasFrom_none sem g xs hi ho g.nodes 0 [] hn]; rfl

/-- A reused node that was renamed. -/
def renamedGraph : Graph Int Int Int where
  nodes := [⟨["x"], [], 0, 1, none, false, none, 1, false⟩,
    ⟨["f", "pw"], [(0, 0)], 5, 1, some "f", false, none, 1, false⟩,
    ⟨["f", "reused", "1", "pw"], [(1, 0)], 5, 1, some "f", true, none, 1, false⟩]
  inputs := [0]
  outputs := [(2, 0)]
  insertPreserving := false

example : kerasForward toy renamedGraph [3] = none :=
  C120_keras_name toy renamedGraph [3] (renamedGraph.nodes[2]'(by decide)) (by simp [renamedGraph]) rfl
    (by simp [renamedGraph]) (by simp [renamedGraph])
example : forward toy 1 .exported false renamedGraph [3] = some [.one 13] := by decide +kernel

end MCT.Build
