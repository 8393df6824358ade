/-
C148: folding all batch normalisations of a model in one pass.
-/
import Verif.Subst.Props
import Verif.Graph.Passes

namespace MCT.Subst
open MCT.SubstSpec MCT.GraphSpec

variable {K : Type*} [Field K] {P : Type*}

/-- **C148**, folding: convolutions `cv`, batch normalisations `bn` and the layers that replace them mean what they should,
all other layers are arbitrary. Every batch normalisation that is the only consumer of a convolution is folded, and the
model computes the same function. -/
theorem C148_batch_normalisations {N : Type*} [DecidableEq N] {g : MCT.Graph.Gr N} (wf : WellFormed g)
    (reused : MCT.Graph.Edge N → Bool) (c : MCT.Graph.Edge N → N) (isConv isNorm : N → Bool)
    (hpq : ∀ n, isConv n = true → isNorm n = false) {found : List (MCT.Graph.Edge N)}
    (hf : found.Perm (MCT.Graph.edgeFilter g isConv isNorm))
    (hfresh : ∀ e ∈ found, c e ∉ g.nodes) (hinj : ∀ e ∈ found, ∀ r ∈ found, c e = c r → e = r)
    (hsafe : ∀ e ∈ found, ¬ IsOutput g e.src ∧ e.src ∉ g.inputs)
    (cv : N → Conv K) (bn : N → BN K) (sqrt : K → K) (src : N → P → Nat → Option P)
    (hv : ∀ n, isConv n = true → (cv n).Valid ∧
      ((cv n).kind = .torchTranspose → (cv n).groups = 1 ∨ (cv n).groups = (cv n).cin))
    {I : Interp N (Nat → P → K)}
    (ha : ∀ e ∈ found, ∀ args k, I e.src args k = channels (cv e.src).cout ((cv e.src).out (src e.src) (args.headD 0)))
    (hb : ∀ e ∈ found, ∀ args k, I e.dst args k = channels (cv e.src).cout ((bn e.dst).out sqrt (args.headD 0)))
    (hc : ∀ e ∈ found, ∀ args k, I (c e) args k =
      channels (cv e.src).cout ((foldBN sqrt (cv e.src) (bn e.dst)).out (src e.src) (args.headD 0))) :
    ∃ g', MCT.Graph.substituteAll (MCT.Graph.foldMatch reused (fun _ => true) c) found g = some g' ∧ WellFormed g' ∧
      SameFunction g I g' I ∧
      ∀ e ∈ g.edges, isConv e.src = true → isNorm e.dst = true → reused e = false → edgesFrom g e.src = [e] →
        edgesInto g e.dst = [e] → e.src ∉ g'.nodes ∧ e.dst ∉ g'.nodes ∧ c e ∈ g'.nodes := by
  obtain ⟨g', h1, h2, h3, h4⟩ := MCT.Graph.C148_kinds wf reused (fun _ => true) c isConv isNorm hpq hf hfresh hinj
    (fun e he _ => hsafe e he) (I := I) (by
      intro e he _ args k
      have hce : isConv e.src = true := by
        have := hf.mem_iff.1 he
        rw [(MCT.Graph.C79_nodes_edges g isConv isNorm).2] at this
        exact this.2.1
      rw [hc e he, hb e he, List.headD_cons, ha e he]
      funext o p
      simp only [channels]
      by_cases ho : o < (cv e.src).cout
      · simp only [ho, if_true]
        rw [C32_folded_layer_partial (hv _ hce).1 (hv _ hce).2 sqrt _ _ _ ho p]
        simp only [BN.out, channels, ho, if_true]
      · simp only [ho, if_false])
  exact ⟨g', h1, h2, h3, fun e he p q r s t => h4 e he p q ⟨r, rfl, s, t⟩⟩

/-- The two convolutions of the example graph with two branches, one grouped without bias and one of PyTorch. -/
example : ∀ n, MCT.Graph.convs n = true → MCT.Graph.norms n = false := by
  intro n h
  simp only [MCT.Graph.convs, Bool.or_eq_true, beq_iff_eq] at h
  rcases h with (rfl | rfl) | rfl <;> rfl

end MCT.Subst
