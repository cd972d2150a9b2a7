import Verif.Model.Lfa
import Verif.Proofs.Ieee
import Verif.Props.C01_C05
import Verif.Props.C06_C11
import Verif.Props.C12_C16
import Verif.Props.C17_C22
import Verif.Props.C23_C29
import Verif.Props.C30_C35
import Verif.Props.C36_C39
import Verif.Props.C40_C43
import Verif.Props.C44_C50
import Verif.Props.C51_C54
import Verif.Props.C55_C58
import Verif.Props.C59_C68
import Verif.Props.C69_C71
import Verif.Props.C72_C79
import Verif.Props.C80_C85
import Verif.Props.C86
import Verif.Props.C87
import Verif.Props.C88
import Verif.Props.C89
import Verif.Props.C90
import Verif.Props.C91
import Verif.Props.C92
import Verif.Props.C93_C94
import Verif.Props.C95_C96
import Verif.Props.C97_C98
import Verif.Props.C99_C100
import Verif.Props.C101_C102
import Verif.Props.C103_C104
import Verif.Props.C105
import Verif.Props.C106
import Verif.Props.C107_C108
import Verif.Props.C109_C110
import Verif.Props.Sharp
import Verif.Props.SharpKernels
import Verif.Model.Ifdd
import Verif.Spec.Ifdd
import Verif.Props.C111_C114
import Verif.Proofs.Recurrence
import Verif.Props.C115_C117
import Verif.Proofs.Universal
import Verif.Props.C118_C119
import Verif.Props.C120
import Verif.Model.Memory
import Verif.Props.C121_C123
import Verif.Props.C124
import Verif.Proofs.Dense
import Verif.Props.C125_C127
import Verif.Props.C128_C131
import Verif.Proofs.Average
import Verif.Spec.Sampling
import Verif.Props.C132_C133
import Verif.Model.Serde
import Verif.Spec.Serde
import Verif.Proofs.Serde
import Verif.Props.C134_C135
import Verif.Model.Describe
import Verif.Props.C136_C137
import Verif.Props.C138
import Verif.Props.C139
import Verif.Props.C140
import Verif.Spec.Bootstrap
import Verif.Proofs.Bootstrap
import Verif.Proofs.Walk
import Verif.Props.C141
import Verif.Props.C142_C144
import Verif.Props.C145
import Verif.Model.Unwind
import Verif.Props.C146
import Verif.Proofs.LinearStep
import Verif.Props.C147_C148
import Verif.Props.C149
import Verif.Props.C150
import Verif.Props.C150Order
import Verif.Proofs.Band
import Verif.Props.C151
import Verif.Tests.Crate
import Verif.Proofs.Delay
import Verif.Props.C152
import Verif.Proofs.DelayedGain
import Verif.Props.C153
import Verif.Props.SharpPanics
import Verif.Props.SharpShared
import Verif.Props.C154
import Verif.Model.Overflow
import Verif.Spec.Overflow
import Verif.Props.C155
import Verif.Props.SharpBuild
import Verif.Props.C156
import Verif.Props.C157
import Verif.Props.C158_C160
import Verif.Proofs.NormErr
import Verif.Props.C161_C162
import Verif.Spec.Loss
import Verif.Proofs.LeastSquares
import Verif.Props.SharpPositive
import Verif.Props.C87Tight
import Verif.Props.C163
import Verif.Props.C164
import Verif.Model.Signed
import Verif.Spec.Signed
import Verif.Proofs.Hom
import Verif.Proofs.HomTrain
import Verif.Proofs.HomBasis
import Verif.Proofs.Signed
import Verif.Props.C165
import Verif.Model.PartialEq
import Verif.Spec.PartialEq
import Verif.Props.C166
import Verif.Proofs.FeatErr
import Verif.Props.C167
import Verif.Props.C168
import Verif.Proofs.KernelErr
import Verif.Proofs.ExpGap
import Verif.Proofs.KernelValue
import Verif.Proofs.KernelRational
import Verif.Proofs.KernelMatern
import Verif.Props.C169
import Verif.Props.C170
import Verif.Spec.Gradient
import Verif.Proofs.AdagradErr
import Verif.Proofs.VelocityErr
import Verif.Proofs.AdamErr
import Verif.Spec.AdamStep
import Verif.Props.C171
import Verif.Props.C172
import Verif.Props.C173
import Verif.Props.C174
import Verif.Props.C175
import Verif.Props.C176
import Verif.Props.C177
import Verif.Props.C178
import Verif.Props.C179
import Verif.Props.C180
import Verif.Props.C181
import Verif.Props.C182
import Verif.Props.C183
import Verif.Props.C184
import Verif.Props.C185
import Verif.Props.C186
import Verif.Props.C187
import Verif.Props.C188
import Verif.Props.C189
import Verif.Props.C190
import Verif.Props.C191
import Verif.Props.C192
import Verif.Props.C193
import Verif.Props.C193_more
import Verif.Props.C194
import Verif.Props.C195
import Verif.Props.C196
import Verif.Props.C197
import Verif.Props.C198
import Verif.Props.C199
import Verif.Props.C200
import Verif.Props.C201
import Verif.Props.C202
import Verif.Props.C203
import Verif.Props.C203_f64
import Verif.Props.C204
import Verif.Props.C205
import Verif.Props.C206
import Verif.Props.C207
import Verif.Props.C208
import Verif.Props.C209
import Verif.Props.C210
import Verif.Props.C211
import Verif.Props.C59_f64
import Verif.Props.C166_C189
import Verif.Props.C05_C45_f64
import Verif.Props.SharpIfdd
