import Verif.Lemmas.Nomial

/-! A tactic that computes with the nomial model over the reals. Used for examples and witnesses. -/

namespace Verif

/-- evaluate model functions on concrete real data -/
macro "pyeval" : tactic => `(tactic|
  norm_num [Expr.build, varNomial, PyVal.mul, Nomial.mulNum, mkSig, NMap.scale, dictScale, NMap.unitsOfProduct,
    NMap.anyNonpositive, PyVal.add, Nomial.add, Nomial.addNum, numMap, NMap.add, dictAdd, PyDict.get?, PyDict.set, PyDict.del,
    Nomial.mul, Nomial.mulTerms, Nomial.mulStep, PyVal.pow, Nomial.monoPow, Nomial.sigPow, Nomial.powLoop, PyExpo.toK,
    PyVal.neg, Nomial.neg, PyVal.sub, PyVal.div, PyVal.rdiv, PyVal.numOp,
    bind, pure, Except.bind, Except.pure, HV.beq_def, List.isPerm, HV.scale, HV.add, HV.empty, pw_real])

end Verif
