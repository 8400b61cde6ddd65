/- Which poses of a pose graph are tied to the world. -/
import Verif.Model.Factor

namespace Jaxfg.Spec

/-- The pose of `v` is tied to the world: it has a prior, or a chain of relative measurements leads to it from a pose that has one. -/
inductive Anchored (fs : List Factor) : Var → Prop
  | prior {f : Factor} {v : Var} (hf : f ∈ fs) (hv : f.vars = [v]) : Anchored fs v
  | forward {f : Factor} {a b : Var} (hf : f ∈ fs) (hv : f.vars = [a, b]) (ha : Anchored fs a) : Anchored fs b
  | backward {f : Factor} {a b : Var} (hf : f ∈ fs) (hv : f.vars = [a, b]) (hb : Anchored fs b) : Anchored fs a

end Jaxfg.Spec
