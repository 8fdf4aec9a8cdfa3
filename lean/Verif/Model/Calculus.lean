import Verif.Model.Base

/-! Model of `/repo/calculus.hh`. -/

namespace DSP
variable {α : Type}

/-- `Integrator::operator()`, calculus.hh:19-22; the state is `sum`. -/
def integrator [Add α] (sum input : α) : α × α := (sum + input, sum + input)

/-- `Differentiator::operator()`, calculus.hh:33-38; the state is `prev`. -/
def differentiator [Sub α] (prev input : α) : α × α := (input, input - prev)

end DSP
