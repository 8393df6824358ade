import Verif.MP.Model

/-! # Specification notions for mixed precision -/

namespace MCT.MPSpec

open MCT.MP

/-- `c` refines `c0`: it differs from it, has at least its bits everywhere, and changes only the kinds
of bits (activation `aR`, weights `wR`) that the target restricts. -/
structure Upgrade (aR wR : Bool) (c0 c : Cand) : Prop where
  ne : c ≠ c0
  act : c0.aBits ≤ c.aBits
  actFixed : aR = false → c.aBits = c0.aBits
  weights : ∀ k, c0.w k ≤ c.w k
  weightsFixed : wR = false → ∀ k, c.w k = c0.w k

/-- Candidate `i` is `c`, and no other candidate has the same bits. -/
def OnlyAt (cands : List Cand) (i : ℕ) (c : Cand) : Prop :=
  cands[i]? = some c ∧ ∀ j, cands[j]? = some c → j = i

/-- A candidate index for every configurable node. -/
def ValidCfg (net : Net) (cfg : ℕ → ℕ) : Prop :=
  ∀ (i : ℕ) (n : Node), net.nodes[i]? = some n → n.conf = true → cfg i < n.cands.length

/-- The candidates of every node list the bits of the same weight attributes. -/
def Uniform (net : Net) : Prop :=
  ∀ (i : ℕ) (n : Node), net.nodes[i]? = some n → ∀ c ∈ n.cands, ∀ c' ∈ n.cands,
    c.wBits.length = c'.wBits.length

/-- No kernel layer with varying kernel bits reads an activation with varying bits. -/
def BopsSeparate (net : Net) : Prop :=
  ∀ (i : ℕ) (n : Node) (k a : ℕ), net.nodes[i]? = some n → n.kernel = some k → n.prev = [a] → n.macs ≠ 0 →
    ∀ (j : ℕ) (s : Node), net.preserved (net.nodes.length + 1) a = some j → net.nodes[j]? = some s →
      ¬ (s.confAct = true ∧ n.confWeight k = true)


/-- The candidate used for node `i`: the configured one, or the first one of a node that is not
configurable. -/
def selected (cfg : ℕ → ℕ) (i : ℕ) (n : Node) : Option Cand :=
  if n.conf then n.cands[cfg i]? else n.cands[0]?

/-- The candidates of a node that is not configurable agree on the quantized attributes. -/
def FixedAgree (n : Node) : Prop :=
  n.conf = false → n.reuse = false → n.cands ≠ [] ∧
    ∀ (k size : ℕ), n.attrs[k]? = some (size, true) → ∀ c ∈ n.cands, ∀ c' ∈ n.cands, c.w k = c'.w k

variable {K : Type*} [Field K]

/-- Bytes of the weight attributes of node `i`: nothing for a reused node, else size times bits over
eight for each quantized attribute. -/
def nodeBytes (cfg : ℕ → ℕ) (i : ℕ) (n : Node) : K :=
  if n.reuse then 0
  else ((List.range n.attrs.length).map fun k =>
    match n.attrs[k]?, selected cfg i n with
    | some (size, true), some c => (size : K) * (c.w k : K) / 8
    | _, _ => 0).sum

/-- Total sensitivity of a configuration. -/
def totalSens (net : Net) (sens : ℕ → ℕ → K) (cfg : ℕ → ℕ) : K :=
  (net.confNodes.map fun i => sens i (cfg i)).sum

/-- The configuration's utilization is defined and within the target. -/
def Satisfies [LinearOrder K] (net : Net) (target : RU K) (cfg : ℕ → ℕ) : Prop :=
  ∃ ru, net.computeRU target.restricted cfg = some ru ∧ ∀ t, ru.get t ≤ target.get t

end MCT.MPSpec
