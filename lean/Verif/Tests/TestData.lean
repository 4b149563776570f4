import Verif.Spec.TestData
import Verif.Spec.Sha256

/-
The fixtures of `/repo/tests-data/fixtures` and `/repo/tests-data-binary/fixtures`, run by the models
of `Test::execute` and `ProofTest::execute` (transcribed, with the texts of the files as they are).
-/
namespace FuelMerkle.Tests
open TestData

def hexV (s : String) : EncodedValue := ⟨s, .hex⟩
def b64V (s : String) : EncodedValue := ⟨s, .base64⟩
def txtV (s : String) : EncodedValue := ⟨s, .utf8⟩

def passes (x : Outcome Unit) : Bool := x.toOption == some ()

def executeSparse (name : String) (expected : EncodedValue) (steps : List Step) : Bool :=
  passes (Test.execute standard ⟨true, true, .w64⟩ Sha256.sha256 ⟨name, expected, steps⟩)

def executeProof (name : String) (root : EncodedValue) (set : List EncodedValue) (i n : Nat) (b : Bool) : Bool :=
  passes (ProofTest.execute standard ⟨true, true, .w64⟩ Sha256.sha256 ⟨name, "", "", root, set, i, n, b⟩)

-- Test Delete Non-existent Key.yaml
#guard executeSparse "Test Delete Non-existent Key" (hexV "108f731f2414e33ae57e584dc26bd276db07874436b2264ca6e520c658185c6b") [
  ⟨"update", some (hexV "df3f619804a92fdb4057192dc43dd748ea778adc52bc498ce80524c014b81119"), some (txtV "DATA")⟩,
  ⟨"update", some (hexV "b40711a88c7039756fb8a73827eabe2c0fe5a0346ca7e0a104adc0fc764f528d"), some (txtV "DATA")⟩,
  ⟨"update", some (hexV "433ebf5bc03dffa38536673207a21281612cef5faa9bc7a4d5b9be2fdb12cf1a"), some (txtV "DATA")⟩,
  ⟨"update", some (hexV "88185d128d9922e0e6bcd32b07b6c7f20f27968eab447a1d8d1cdf250f79f7d3"), some (txtV "DATA")⟩,
  ⟨"update", some (hexV "1bc5d0e3df0ea12c4d0078668d14924f95106bbe173e196de50fe13a900b0937"), some (txtV "DATA")⟩,
  ⟨"delete", some (hexV "72034de8a594b12de51205feba7ade26899d8425e81eac7f8c296bf974a51c60"), none⟩]

-- Test Delete Sparse Union.yaml
#guard executeSparse "Test Delete Sparse Union" (hexV "e912e97abc67707b2e6027338292943b53d01a7fbd7b244674128c7e468dd696") [
  ⟨"update", some (hexV "df3f619804a92fdb4057192dc43dd748ea778adc52bc498ce80524c014b81119"), some (txtV "DATA")⟩,
  ⟨"update", some (hexV "b40711a88c7039756fb8a73827eabe2c0fe5a0346ca7e0a104adc0fc764f528d"), some (txtV "DATA")⟩,
  ⟨"update", some (hexV "433ebf5bc03dffa38536673207a21281612cef5faa9bc7a4d5b9be2fdb12cf1a"), some (txtV "DATA")⟩,
  ⟨"update", some (hexV "88185d128d9922e0e6bcd32b07b6c7f20f27968eab447a1d8d1cdf250f79f7d3"), some (txtV "DATA")⟩,
  ⟨"update", some (hexV "1bc5d0e3df0ea12c4d0078668d14924f95106bbe173e196de50fe13a900b0937"), some (txtV "DATA")⟩,
  ⟨"update", some (hexV "221f8af2372a95064f2ef7d7712216a9ab46e7ef98482fd237e106f83eaa7569"), some (txtV "DATA")⟩,
  ⟨"update", some (hexV "b253668f6b59f1ff28522831931e4d3c5a3de533965af22e961735437c0172cb"), some (txtV "DATA")⟩,
  ⟨"update", some (hexV "1561ade0621c5acf44b780521f95a1e0b19b4e5032945b860c4032fc28a3a23b"), some (txtV "DATA")⟩,
  ⟨"update", some (hexV "17eb70034b5b71092521d184c5e7b069d47de657e51aef2be11a00c115036943"), some (txtV "DATA")⟩,
  ⟨"update", some (hexV "3b28a6c3766c6295adad976d349705ef49393fbfdebe4facb5862d2cdfa285d3"), some (txtV "DATA")⟩,
  ⟨"delete", some (hexV "b40711a88c7039756fb8a73827eabe2c0fe5a0346ca7e0a104adc0fc764f528d"), none⟩,
  ⟨"delete", some (hexV "88185d128d9922e0e6bcd32b07b6c7f20f27968eab447a1d8d1cdf250f79f7d3"), none⟩,
  ⟨"delete", some (hexV "221f8af2372a95064f2ef7d7712216a9ab46e7ef98482fd237e106f83eaa7569"), none⟩,
  ⟨"delete", some (hexV "1561ade0621c5acf44b780521f95a1e0b19b4e5032945b860c4032fc28a3a23b"), none⟩,
  ⟨"delete", some (hexV "3b28a6c3766c6295adad976d349705ef49393fbfdebe4facb5862d2cdfa285d3"), none⟩]

-- Test Empty Root.yaml
#guard executeSparse "Test Empty Root" (hexV "0000000000000000000000000000000000000000000000000000000000000000") [
]

-- Test Interleaved Update Delete.yaml
#guard executeSparse "Test Interleaved Update Delete" (hexV "7e6643325042cfe0fc76626c043b97062af51c7e9fc56665f12b479034bce326") [
  ⟨"update", some (hexV "df3f619804a92fdb4057192dc43dd748ea778adc52bc498ce80524c014b81119"), some (txtV "DATA")⟩,
  ⟨"update", some (hexV "b40711a88c7039756fb8a73827eabe2c0fe5a0346ca7e0a104adc0fc764f528d"), some (txtV "DATA")⟩,
  ⟨"update", some (hexV "433ebf5bc03dffa38536673207a21281612cef5faa9bc7a4d5b9be2fdb12cf1a"), some (txtV "DATA")⟩,
  ⟨"update", some (hexV "88185d128d9922e0e6bcd32b07b6c7f20f27968eab447a1d8d1cdf250f79f7d3"), some (txtV "DATA")⟩,
  ⟨"update", some (hexV "1bc5d0e3df0ea12c4d0078668d14924f95106bbe173e196de50fe13a900b0937"), some (txtV "DATA")⟩,
  ⟨"update", some (hexV "221f8af2372a95064f2ef7d7712216a9ab46e7ef98482fd237e106f83eaa7569"), some (txtV "DATA")⟩,
  ⟨"update", some (hexV "b253668f6b59f1ff28522831931e4d3c5a3de533965af22e961735437c0172cb"), some (txtV "DATA")⟩,
  ⟨"update", some (hexV "1561ade0621c5acf44b780521f95a1e0b19b4e5032945b860c4032fc28a3a23b"), some (txtV "DATA")⟩,
  ⟨"update", some (hexV "17eb70034b5b71092521d184c5e7b069d47de657e51aef2be11a00c115036943"), some (txtV "DATA")⟩,
  ⟨"update", some (hexV "3b28a6c3766c6295adad976d349705ef49393fbfdebe4facb5862d2cdfa285d3"), some (txtV "DATA")⟩,
  ⟨"delete", some (hexV "221f8af2372a95064f2ef7d7712216a9ab46e7ef98482fd237e106f83eaa7569"), none⟩,
  ⟨"delete", some (hexV "b253668f6b59f1ff28522831931e4d3c5a3de533965af22e961735437c0172cb"), none⟩,
  ⟨"delete", some (hexV "1561ade0621c5acf44b780521f95a1e0b19b4e5032945b860c4032fc28a3a23b"), none⟩,
  ⟨"delete", some (hexV "17eb70034b5b71092521d184c5e7b069d47de657e51aef2be11a00c115036943"), none⟩,
  ⟨"delete", some (hexV "3b28a6c3766c6295adad976d349705ef49393fbfdebe4facb5862d2cdfa285d3"), none⟩,
  ⟨"delete", some (hexV "e084a105a7b7d599b8346d3cba5ac51b756d7e29c7ef77fd9eff31fdeae31389"), none⟩,
  ⟨"delete", some (hexV "390b36a09502b05d4f8c27aea2636c6b7fd05b27d742ed32074ffea1f888ebe4"), none⟩,
  ⟨"delete", some (hexV "c22ceee66b8ab104483c83053173b33f992dd4fcb457284c60ef9d699a1c7059"), none⟩,
  ⟨"delete", some (hexV "8092fe01b9ce31a49ce380fc2fe1ee6b6b7d5c15c5f1ecb6ad98c60c4273a435"), none⟩,
  ⟨"delete", some (hexV "7fde8eebf388fcff667a89be60430cc6e198b1a78cb603a39cdd09885a3336e3"), none⟩,
  ⟨"update", some (hexV "e084a105a7b7d599b8346d3cba5ac51b756d7e29c7ef77fd9eff31fdeae31389"), some (txtV "DATA")⟩,
  ⟨"update", some (hexV "390b36a09502b05d4f8c27aea2636c6b7fd05b27d742ed32074ffea1f888ebe4"), some (txtV "DATA")⟩,
  ⟨"update", some (hexV "c22ceee66b8ab104483c83053173b33f992dd4fcb457284c60ef9d699a1c7059"), some (txtV "DATA")⟩,
  ⟨"update", some (hexV "8092fe01b9ce31a49ce380fc2fe1ee6b6b7d5c15c5f1ecb6ad98c60c4273a435"), some (txtV "DATA")⟩,
  ⟨"update", some (hexV "7fde8eebf388fcff667a89be60430cc6e198b1a78cb603a39cdd09885a3336e3"), some (txtV "DATA")⟩,
  ⟨"update", some (hexV "9246be1e9ba9f5de5baf766a256eb725e9a7551fb93d7faa793c938e0f41de35"), some (txtV "DATA")⟩,
  ⟨"update", some (hexV "5085cb99dbe1e374ccd321e5b58182d2c42cf4840c68cfab17b0618a8285e7d6"), some (txtV "DATA")⟩,
  ⟨"update", some (hexV "8e00d1c0c8ffe94540e534e256d4589be3e3865dc0559a732697aef38a364e83"), some (txtV "DATA")⟩,
  ⟨"update", some (hexV "e9f3440e5518839aa600db07b5400f8ec287ce0321fad602afd103ce447a1c98"), some (txtV "DATA")⟩,
  ⟨"update", some (hexV "14236fe421fe9ddb8377a19b60ce71dd655704bcefc225c9287fb11127ba6569"), some (txtV "DATA")⟩,
  ⟨"delete", some (hexV "9246be1e9ba9f5de5baf766a256eb725e9a7551fb93d7faa793c938e0f41de35"), none⟩,
  ⟨"delete", some (hexV "5085cb99dbe1e374ccd321e5b58182d2c42cf4840c68cfab17b0618a8285e7d6"), none⟩,
  ⟨"delete", some (hexV "8e00d1c0c8ffe94540e534e256d4589be3e3865dc0559a732697aef38a364e83"), none⟩,
  ⟨"delete", some (hexV "e9f3440e5518839aa600db07b5400f8ec287ce0321fad602afd103ce447a1c98"), none⟩,
  ⟨"delete", some (hexV "14236fe421fe9ddb8377a19b60ce71dd655704bcefc225c9287fb11127ba6569"), none⟩,
  ⟨"delete", some (hexV "a7911cdfdc28e6a1867e359ba426081aacfa692fdeb3e978d2a68dd924fa8c3e"), none⟩,
  ⟨"delete", some (hexV "21548c66b44347d877e7b405a250121cda87cd494b122f0324f7df3b6cd75f86"), none⟩,
  ⟨"delete", some (hexV "bc2d9ddc9857e53598677dbea82a2583879e89ce6c032c77d825187bf3f1a943"), none⟩,
  ⟨"delete", some (hexV "58ec452ede72799baf21664edc953297b592ad9e95f2381710593ad7a32f31ef"), none⟩,
  ⟨"delete", some (hexV "79a881f99a636d0ad75f16f53668982b59f8bb96c3fbb449155fe7a08dba9cb1"), none⟩,
  ⟨"update", some (hexV "a7911cdfdc28e6a1867e359ba426081aacfa692fdeb3e978d2a68dd924fa8c3e"), some (txtV "DATA")⟩,
  ⟨"update", some (hexV "21548c66b44347d877e7b405a250121cda87cd494b122f0324f7df3b6cd75f86"), some (txtV "DATA")⟩,
  ⟨"update", some (hexV "bc2d9ddc9857e53598677dbea82a2583879e89ce6c032c77d825187bf3f1a943"), some (txtV "DATA")⟩,
  ⟨"update", some (hexV "58ec452ede72799baf21664edc953297b592ad9e95f2381710593ad7a32f31ef"), some (txtV "DATA")⟩,
  ⟨"update", some (hexV "79a881f99a636d0ad75f16f53668982b59f8bb96c3fbb449155fe7a08dba9cb1"), some (txtV "DATA")⟩,
  ⟨"update", some (hexV "282a163f3e6f52ab35cf838079369bce33cf5a1f151d2822846095a6d07e1ae2"), some (txtV "DATA")⟩,
  ⟨"update", some (hexV "c1c3c8fdf22e3a4adef796c8fdaf739d7d3b222f995891eb8f495ca71fb932a8"), some (txtV "DATA")⟩,
  ⟨"update", some (hexV "688e94a51ee508a95e761294afb7a6004b432c15d9890c80ddf23bde8caa4c26"), some (txtV "DATA")⟩,
  ⟨"update", some (hexV "c006af35e3b4ca022ab986593a148b4f196f186168ee96604eeaa7e338e66ac1"), some (txtV "DATA")⟩,
  ⟨"update", some (hexV "c1a9fae908008d34f389b1dba2a1a8e8301f7a942412ef6e6299c9e27e89dfaa"), some (txtV "DATA")⟩,
  ⟨"delete", some (hexV "282a163f3e6f52ab35cf838079369bce33cf5a1f151d2822846095a6d07e1ae2"), none⟩,
  ⟨"delete", some (hexV "c1c3c8fdf22e3a4adef796c8fdaf739d7d3b222f995891eb8f495ca71fb932a8"), none⟩,
  ⟨"delete", some (hexV "688e94a51ee508a95e761294afb7a6004b432c15d9890c80ddf23bde8caa4c26"), none⟩,
  ⟨"delete", some (hexV "c006af35e3b4ca022ab986593a148b4f196f186168ee96604eeaa7e338e66ac1"), none⟩,
  ⟨"delete", some (hexV "c1a9fae908008d34f389b1dba2a1a8e8301f7a942412ef6e6299c9e27e89dfaa"), none⟩,
  ⟨"delete", some (hexV "560231689713a5933b6c8ac3e6b2f243730e49e1c6b0c610c41e8e8dad26044c"), none⟩,
  ⟨"delete", some (hexV "fe5b0deca006174e2151088e1a7d60fe91819467db5d709ae5a19c01a3cd3e3f"), none⟩,
  ⟨"delete", some (hexV "2de44621c76edf2debbc2df62ccb52c5036b1919dca3af0c0a886cc48dbfaeba"), none⟩,
  ⟨"delete", some (hexV "83440636eff7b2ec0f78ef7b8e480a033e8aeb67e6ecb657ce9bcdfdb21aa744"), none⟩,
  ⟨"delete", some (hexV "eaaf1805f2ec6a18eee5a7909f79908651341965d9f0b9de8d45d9262e5735ae"), none⟩]

-- Test Update 1 Delete 1.yaml
#guard executeSparse "Test Update 1 Delete 1" (hexV "0000000000000000000000000000000000000000000000000000000000000000") [
  ⟨"update", some (hexV "df3f619804a92fdb4057192dc43dd748ea778adc52bc498ce80524c014b81119"), some (txtV "DATA")⟩,
  ⟨"delete", some (hexV "df3f619804a92fdb4057192dc43dd748ea778adc52bc498ce80524c014b81119"), none⟩]

-- Test Update 1.yaml
#guard executeSparse "Test Update 1" (hexV "39f36a7cb4dfb1b46f03d044265df6a491dffc1034121bc1071a34ddce9bb14b") [
  ⟨"update", some (hexV "df3f619804a92fdb4057192dc43dd748ea778adc52bc498ce80524c014b81119"), some (txtV "DATA")⟩]

-- Test Update 10 Delete 5.yaml
#guard executeSparse "Test Update 10 Delete 5" (hexV "108f731f2414e33ae57e584dc26bd276db07874436b2264ca6e520c658185c6b") [
  ⟨"update", some (hexV "df3f619804a92fdb4057192dc43dd748ea778adc52bc498ce80524c014b81119"), some (txtV "DATA")⟩,
  ⟨"update", some (hexV "b40711a88c7039756fb8a73827eabe2c0fe5a0346ca7e0a104adc0fc764f528d"), some (txtV "DATA")⟩,
  ⟨"update", some (hexV "433ebf5bc03dffa38536673207a21281612cef5faa9bc7a4d5b9be2fdb12cf1a"), some (txtV "DATA")⟩,
  ⟨"update", some (hexV "88185d128d9922e0e6bcd32b07b6c7f20f27968eab447a1d8d1cdf250f79f7d3"), some (txtV "DATA")⟩,
  ⟨"update", some (hexV "1bc5d0e3df0ea12c4d0078668d14924f95106bbe173e196de50fe13a900b0937"), some (txtV "DATA")⟩,
  ⟨"update", some (hexV "221f8af2372a95064f2ef7d7712216a9ab46e7ef98482fd237e106f83eaa7569"), some (txtV "DATA")⟩,
  ⟨"update", some (hexV "b253668f6b59f1ff28522831931e4d3c5a3de533965af22e961735437c0172cb"), some (txtV "DATA")⟩,
  ⟨"update", some (hexV "1561ade0621c5acf44b780521f95a1e0b19b4e5032945b860c4032fc28a3a23b"), some (txtV "DATA")⟩,
  ⟨"update", some (hexV "17eb70034b5b71092521d184c5e7b069d47de657e51aef2be11a00c115036943"), some (txtV "DATA")⟩,
  ⟨"update", some (hexV "3b28a6c3766c6295adad976d349705ef49393fbfdebe4facb5862d2cdfa285d3"), some (txtV "DATA")⟩,
  ⟨"delete", some (hexV "221f8af2372a95064f2ef7d7712216a9ab46e7ef98482fd237e106f83eaa7569"), none⟩,
  ⟨"delete", some (hexV "b253668f6b59f1ff28522831931e4d3c5a3de533965af22e961735437c0172cb"), none⟩,
  ⟨"delete", some (hexV "1561ade0621c5acf44b780521f95a1e0b19b4e5032945b860c4032fc28a3a23b"), none⟩,
  ⟨"delete", some (hexV "17eb70034b5b71092521d184c5e7b069d47de657e51aef2be11a00c115036943"), none⟩,
  ⟨"delete", some (hexV "3b28a6c3766c6295adad976d349705ef49393fbfdebe4facb5862d2cdfa285d3"), none⟩]

-- Test Update 10.yaml
#guard executeSparse "Test Update 10" (hexV "21ca4917e99da99a61de93deaf88c400d4c082991cb95779e444d43dd13e8849") [
  ⟨"update", some (hexV "df3f619804a92fdb4057192dc43dd748ea778adc52bc498ce80524c014b81119"), some (txtV "DATA")⟩,
  ⟨"update", some (hexV "b40711a88c7039756fb8a73827eabe2c0fe5a0346ca7e0a104adc0fc764f528d"), some (txtV "DATA")⟩,
  ⟨"update", some (hexV "433ebf5bc03dffa38536673207a21281612cef5faa9bc7a4d5b9be2fdb12cf1a"), some (txtV "DATA")⟩,
  ⟨"update", some (hexV "88185d128d9922e0e6bcd32b07b6c7f20f27968eab447a1d8d1cdf250f79f7d3"), some (txtV "DATA")⟩,
  ⟨"update", some (hexV "1bc5d0e3df0ea12c4d0078668d14924f95106bbe173e196de50fe13a900b0937"), some (txtV "DATA")⟩,
  ⟨"update", some (hexV "221f8af2372a95064f2ef7d7712216a9ab46e7ef98482fd237e106f83eaa7569"), some (txtV "DATA")⟩,
  ⟨"update", some (hexV "b253668f6b59f1ff28522831931e4d3c5a3de533965af22e961735437c0172cb"), some (txtV "DATA")⟩,
  ⟨"update", some (hexV "1561ade0621c5acf44b780521f95a1e0b19b4e5032945b860c4032fc28a3a23b"), some (txtV "DATA")⟩,
  ⟨"update", some (hexV "17eb70034b5b71092521d184c5e7b069d47de657e51aef2be11a00c115036943"), some (txtV "DATA")⟩,
  ⟨"update", some (hexV "3b28a6c3766c6295adad976d349705ef49393fbfdebe4facb5862d2cdfa285d3"), some (txtV "DATA")⟩]

-- Test Update 100.yaml
#guard executeSparse "Test Update 100" (hexV "82bf747d455a55e2f7044a03536fc43f1f55d43b855e72c0110c986707a23e4d") [
  ⟨"update", some (hexV "df3f619804a92fdb4057192dc43dd748ea778adc52bc498ce80524c014b81119"), some (txtV "DATA")⟩,
  ⟨"update", some (hexV "b40711a88c7039756fb8a73827eabe2c0fe5a0346ca7e0a104adc0fc764f528d"), some (txtV "DATA")⟩,
  ⟨"update", some (hexV "433ebf5bc03dffa38536673207a21281612cef5faa9bc7a4d5b9be2fdb12cf1a"), some (txtV "DATA")⟩,
  ⟨"update", some (hexV "88185d128d9922e0e6bcd32b07b6c7f20f27968eab447a1d8d1cdf250f79f7d3"), some (txtV "DATA")⟩,
  ⟨"update", some (hexV "1bc5d0e3df0ea12c4d0078668d14924f95106bbe173e196de50fe13a900b0937"), some (txtV "DATA")⟩,
  ⟨"update", some (hexV "221f8af2372a95064f2ef7d7712216a9ab46e7ef98482fd237e106f83eaa7569"), some (txtV "DATA")⟩,
  ⟨"update", some (hexV "b253668f6b59f1ff28522831931e4d3c5a3de533965af22e961735437c0172cb"), some (txtV "DATA")⟩,
  ⟨"update", some (hexV "1561ade0621c5acf44b780521f95a1e0b19b4e5032945b860c4032fc28a3a23b"), some (txtV "DATA")⟩,
  ⟨"update", some (hexV "17eb70034b5b71092521d184c5e7b069d47de657e51aef2be11a00c115036943"), some (txtV "DATA")⟩,
  ⟨"update", some (hexV "3b28a6c3766c6295adad976d349705ef49393fbfdebe4facb5862d2cdfa285d3"), some (txtV "DATA")⟩,
  ⟨"update", some (hexV "e084a105a7b7d599b8346d3cba5ac51b756d7e29c7ef77fd9eff31fdeae31389"), some (txtV "DATA")⟩,
  ⟨"update", some (hexV "390b36a09502b05d4f8c27aea2636c6b7fd05b27d742ed32074ffea1f888ebe4"), some (txtV "DATA")⟩,
  ⟨"update", some (hexV "c22ceee66b8ab104483c83053173b33f992dd4fcb457284c60ef9d699a1c7059"), some (txtV "DATA")⟩,
  ⟨"update", some (hexV "8092fe01b9ce31a49ce380fc2fe1ee6b6b7d5c15c5f1ecb6ad98c60c4273a435"), some (txtV "DATA")⟩,
  ⟨"update", some (hexV "7fde8eebf388fcff667a89be60430cc6e198b1a78cb603a39cdd09885a3336e3"), some (txtV "DATA")⟩,
  ⟨"update", some (hexV "9246be1e9ba9f5de5baf766a256eb725e9a7551fb93d7faa793c938e0f41de35"), some (txtV "DATA")⟩,
  ⟨"update", some (hexV "5085cb99dbe1e374ccd321e5b58182d2c42cf4840c68cfab17b0618a8285e7d6"), some (txtV "DATA")⟩,
  ⟨"update", some (hexV "8e00d1c0c8ffe94540e534e256d4589be3e3865dc0559a732697aef38a364e83"), some (txtV "DATA")⟩,
  ⟨"update", some (hexV "e9f3440e5518839aa600db07b5400f8ec287ce0321fad602afd103ce447a1c98"), some (txtV "DATA")⟩,
  ⟨"update", some (hexV "14236fe421fe9ddb8377a19b60ce71dd655704bcefc225c9287fb11127ba6569"), some (txtV "DATA")⟩,
  ⟨"update", some (hexV "a7911cdfdc28e6a1867e359ba426081aacfa692fdeb3e978d2a68dd924fa8c3e"), some (txtV "DATA")⟩,
  ⟨"update", some (hexV "21548c66b44347d877e7b405a250121cda87cd494b122f0324f7df3b6cd75f86"), some (txtV "DATA")⟩,
  ⟨"update", some (hexV "bc2d9ddc9857e53598677dbea82a2583879e89ce6c032c77d825187bf3f1a943"), some (txtV "DATA")⟩,
  ⟨"update", some (hexV "58ec452ede72799baf21664edc953297b592ad9e95f2381710593ad7a32f31ef"), some (txtV "DATA")⟩,
  ⟨"update", some (hexV "79a881f99a636d0ad75f16f53668982b59f8bb96c3fbb449155fe7a08dba9cb1"), some (txtV "DATA")⟩,
  ⟨"update", some (hexV "282a163f3e6f52ab35cf838079369bce33cf5a1f151d2822846095a6d07e1ae2"), some (txtV "DATA")⟩,
  ⟨"update", some (hexV "c1c3c8fdf22e3a4adef796c8fdaf739d7d3b222f995891eb8f495ca71fb932a8"), some (txtV "DATA")⟩,
  ⟨"update", some (hexV "688e94a51ee508a95e761294afb7a6004b432c15d9890c80ddf23bde8caa4c26"), some (txtV "DATA")⟩,
  ⟨"update", some (hexV "c006af35e3b4ca022ab986593a148b4f196f186168ee96604eeaa7e338e66ac1"), some (txtV "DATA")⟩,
  ⟨"update", some (hexV "c1a9fae908008d34f389b1dba2a1a8e8301f7a942412ef6e6299c9e27e89dfaa"), some (txtV "DATA")⟩,
  ⟨"update", some (hexV "560231689713a5933b6c8ac3e6b2f243730e49e1c6b0c610c41e8e8dad26044c"), some (txtV "DATA")⟩,
  ⟨"update", some (hexV "fe5b0deca006174e2151088e1a7d60fe91819467db5d709ae5a19c01a3cd3e3f"), some (txtV "DATA")⟩,
  ⟨"update", some (hexV "2de44621c76edf2debbc2df62ccb52c5036b1919dca3af0c0a886cc48dbfaeba"), some (txtV "DATA")⟩,
  ⟨"update", some (hexV "83440636eff7b2ec0f78ef7b8e480a033e8aeb67e6ecb657ce9bcdfdb21aa744"), some (txtV "DATA")⟩,
  ⟨"update", some (hexV "eaaf1805f2ec6a18eee5a7909f79908651341965d9f0b9de8d45d9262e5735ae"), some (txtV "DATA")⟩,
  ⟨"update", some (hexV "6870f86f6560dd5b0d0a47d0ae89df6a96b6a47a6258940060d75ff759634158"), some (txtV "DATA")⟩,
  ⟨"update", some (hexV "e882dd6a247f4ada1f700f1918bd23b7c730ad62af15f5cec8de976cbad09691"), some (txtV "DATA")⟩,
  ⟨"update", some (hexV "51be0458d20b1ce2ff5316e7e473109c26f5d8b457037edf8c4529f6ff82bddb"), some (txtV "DATA")⟩,
  ⟨"update", some (hexV "0f65dd2d76efb602f9554514892751d5cf336a56c3888aa8cb122e970016949a"), some (txtV "DATA")⟩,
  ⟨"update", some (hexV "b9098fe78517adc23218f8cd7d804f55c977fb22185a4d8e752ab7e82e5c1d89"), some (txtV "DATA")⟩,
  ⟨"update", some (hexV "95534981420d9a1e5d3cd3b567c6e21f920742087ecf44c187e077cdc8497ac2"), some (txtV "DATA")⟩,
  ⟨"update", some (hexV "c8d26116ed30f9816a05fdf061b2535145472f388d9814e96f33f08369dbcbd0"), some (txtV "DATA")⟩,
  ⟨"update", some (hexV "ae3c8b8d99a39542f78af83dbbb42c81cd94199ec1b5f60a0801063e95842570"), some (txtV "DATA")⟩,
  ⟨"update", some (hexV "d596e806d34bd7d4304b9f00ec340f02fa90c4faa17fe39729cb15c76e0de77f"), some (txtV "DATA")⟩,
  ⟨"update", some (hexV "552d7d672c5bbbccfb210a425e36a1d65bc663d3d3c395114c8ebc9c7cf28394"), some (txtV "DATA")⟩,
  ⟨"update", some (hexV "5a05f87d329a8321f2006f4f3b11b810aeddcd21cb383b61df03824074eaffc9"), some (txtV "DATA")⟩,
  ⟨"update", some (hexV "daceee899cdb68711b2b16b1708d684b193062163a2ef8ca80e5a3f002212822"), some (txtV "DATA")⟩,
  ⟨"update", some (hexV "6b0e4bfa8dc9b19ccc121b2bd0d22da7298d7a4d72b4ba1df1bbec5d56800a66"), some (txtV "DATA")⟩,
  ⟨"update", some (hexV "2c19fc328bfccab923ee092d9123a9ccc9fb37bbf0d2c65d2fe12b6684ff4857"), some (txtV "DATA")⟩,
  ⟨"update", some (hexV "cc74c0c353fe2c007aff8dc7db556638f52260fea1dc0bce2f04002db6ad90ce"), some (txtV "DATA")⟩,
  ⟨"update", some (hexV "1fc244af2b96d0169a177e2559af29e0484744e4b8501d1044d76c9f7b3cf307"), some (txtV "DATA")⟩,
  ⟨"update", some (hexV "8ef3b0d7c4476e2c0a91ccc5867740a0549313b585345c1d12587ca2ed04e9f5"), some (txtV "DATA")⟩,
  ⟨"update", some (hexV "46cecbeaa7de6866910a4856ef1f7378f9dd9dfa698578637ce4ecb33e7f7bac"), some (txtV "DATA")⟩,
  ⟨"update", some (hexV "0d21caa7d0c6f1ff692603abec4315c560792923a6cfa5729ef8dd6d8220e0a1"), some (txtV "DATA")⟩,
  ⟨"update", some (hexV "0cc6a4ccca98a6360d42fde83780517edbfc32b300cd3ba0e0a5453a8166697a"), some (txtV "DATA")⟩,
  ⟨"update", some (hexV "683babc0c420c80a762490d4d73b271876ab07f11c80553f6e9125fb82c734f0"), some (txtV "DATA")⟩,
  ⟨"update", some (hexV "f8de494d620f85b1cfed002bb1ea4fbf93f7eaa4b4b8a5c7f145b3cab041c0d3"), some (txtV "DATA")⟩,
  ⟨"update", some (hexV "75ce1f4e6c052ea6fec089042a96928fda84ea969c99b35f6894a1819226ac5e"), some (txtV "DATA")⟩,
  ⟨"update", some (hexV "e696a8ec6b7f294aa56059125664931f12997987bb52fffefc209d35492adc3c"), some (txtV "DATA")⟩,
  ⟨"update", some (hexV "af0ff5439963767457709e63313da23382a6292190e2de1ba9c6c87dc6a1927e"), some (txtV "DATA")⟩,
  ⟨"update", some (hexV "4082763076bdaee3a85e52eb5893169d45d057397616251e0e699e6403238e66"), some (txtV "DATA")⟩,
  ⟨"update", some (hexV "15b165510f75144be8633336a97ac62c664d5c436db297fc13fb4d3ac147d7fd"), some (txtV "DATA")⟩,
  ⟨"update", some (hexV "31b67dba7cfd6e2d7540f9c96d90a45b8f2d44956620723024d4e1beeacd4602"), some (txtV "DATA")⟩,
  ⟨"update", some (hexV "d99e58435243d9fef9c88273b8d553b4fba4d0baf8009d29eae74fa99e0d9f57"), some (txtV "DATA")⟩,
  ⟨"update", some (hexV "d88c86f15bbea365d658ad95a81d45367c465f7af6f7264fb077f01747ddc77d"), some (txtV "DATA")⟩,
  ⟨"update", some (hexV "03e3c2420f5066a5fa6e36735ed8cc4f6a251046263e1a6024f009deeee3b952"), some (txtV "DATA")⟩,
  ⟨"update", some (hexV "825ac1bb838d399fb1ba55a6247e2c8c7a0c3ec25898f3c94dbfb51fa6e73951"), some (txtV "DATA")⟩,
  ⟨"update", some (hexV "ad286c64373644140ff927b256b8415467b5d27645ff997010b15519d022631b"), some (txtV "DATA")⟩,
  ⟨"update", some (hexV "03a88c8867b3fbcfeefc3270af46afbeb74a27e12cad758e188154cb4aa923dc"), some (txtV "DATA")⟩,
  ⟨"update", some (hexV "569ce7ffc5ab3343d40276040602bb1e6d9a9f9aeb5c25e2c65f2d3c1b867ff4"), some (txtV "DATA")⟩,
  ⟨"update", some (hexV "514970ce425bbbe11b969e5cd683f4c1b7722f7f026b45006c53a8031b2fc32e"), some (txtV "DATA")⟩,
  ⟨"update", some (hexV "719b774d7d3b2ebd5e2ce1cde4f59a2ebb8f1f7069daa0baecc564a83abd5bc6"), some (txtV "DATA")⟩,
  ⟨"update", some (hexV "a5e537813128ccca735d65a9027cd5057d164fc78f25e55128e17a501851d585"), some (txtV "DATA")⟩,
  ⟨"update", some (hexV "3f08f60bf2a0754139d918d80882ef46cd0257bd2f62ef5d8a1e28175c4360cc"), some (txtV "DATA")⟩,
  ⟨"update", some (hexV "5d6941b983cd61008a67cd3865fe78cc6a4f0966f2c3fb27e1a3ec6667a545dd"), some (txtV "DATA")⟩,
  ⟨"update", some (hexV "90a21fd1ef7b2ead7bf8b13df631f94dd0b1c0ab174a64fb9ea5d37fdad4b150"), some (txtV "DATA")⟩,
  ⟨"update", some (hexV "dbf8f061b38993c8d7dc1f521c3df09f31359d1fb947e19efac98362f99d46de"), some (txtV "DATA")⟩,
  ⟨"update", some (hexV "0a62d0f80072eafa5d94b92a01043d978e9ec6a473f4d4c883db99221a78fe2f"), some (txtV "DATA")⟩,
  ⟨"update", some (hexV "b310919be4d5c7892739294545b85928746fa6b90e568f04af5fb6c48379c3a9"), some (txtV "DATA")⟩,
  ⟨"update", some (hexV "4149d67891c7efddad38eb590d537d3f33a25d6454ffba671e1c20cf5824a22c"), some (txtV "DATA")⟩,
  ⟨"update", some (hexV "16ab79353cdbc2bef69a106f68d5f6b5adc70bce130df5a523212826ef117d3f"), some (txtV "DATA")⟩,
  ⟨"update", some (hexV "d8063c1eafe3b5fd49d4c8e8737316ba79a8729f7364426382c575422af3f84d"), some (txtV "DATA")⟩,
  ⟨"update", some (hexV "59310b9b2c75881cf3edca5da5a755ed36ed737945a84c6e50c657de0c513c7e"), some (txtV "DATA")⟩,
  ⟨"update", some (hexV "800b108f968347f00ac77eb6511893e19dde9e8aba637d28efceb636369a817c"), some (txtV "DATA")⟩,
  ⟨"update", some (hexV "acdcbc039caf8f6b1cbc24d2f87a03785d8f60ed23be607d17950d62ea8c33f5"), some (txtV "DATA")⟩,
  ⟨"update", some (hexV "dfe4224c822504739c7efea90fd28bf76a31a68ecb99096166eab251f5535a17"), some (txtV "DATA")⟩,
  ⟨"update", some (hexV "eb23c65a4244616063b70d7502b960e5d5d07b51a02472ab8a01e7482da34e47"), some (txtV "DATA")⟩,
  ⟨"update", some (hexV "97efc1907815f13e6a02d4149a09e9a5389388ed6def2c1260cfec26d3b19f3f"), some (txtV "DATA")⟩,
  ⟨"update", some (hexV "3523d19074cac2abcc3ace63b121eefa537c8e4070e30875ba5685f46bb010ef"), some (txtV "DATA")⟩,
  ⟨"update", some (hexV "b16a7efa6c4b528ecbe9db04df4d2bb4e555efe819233c9134311fa0a463e5f5"), some (txtV "DATA")⟩,
  ⟨"update", some (hexV "702a137706cb2ef04842c238c2b37fed632682838b99b0a6f504cf6b0188dafd"), some (txtV "DATA")⟩,
  ⟨"update", some (hexV "b70aeff402d30d7d55ee164fd109ce3942fe50343ae513b3c3f7be9db96ea46d"), some (txtV "DATA")⟩,
  ⟨"update", some (hexV "32fc4a6ccd676bae363546309128ef7c88d983c78688d2d53584af11c8a0be9c"), some (txtV "DATA")⟩,
  ⟨"update", some (hexV "43b728ce5e336e2e48a38a61805a73c094e7c1e6bbd6f85bedd679986aea5bfb"), some (txtV "DATA")⟩,
  ⟨"update", some (hexV "920218ce21e9b273c4110f07c5803f74266a7b9ca388285752a3924acfb96cf6"), some (txtV "DATA")⟩,
  ⟨"update", some (hexV "b894454077582b5d5aad1f58872264afc2ddb8d95683fb8c005e3f98c2aa26f8"), some (txtV "DATA")⟩,
  ⟨"update", some (hexV "ca3076acbb6ec2b695ebf174caa57ef3f8421707948a72029cc3836b9572c9d7"), some (txtV "DATA")⟩,
  ⟨"update", some (hexV "d2febf3079d64fcc48205885b66974fbecac6162a3e75761b082c228e364dd7e"), some (txtV "DATA")⟩,
  ⟨"update", some (hexV "0f471c818c185f9c35ddd6c05738371e15c29a8f9d9a3b244f30652f48c2aa69"), some (txtV "DATA")⟩,
  ⟨"update", some (hexV "a40fb80ad4287819ecda5efac01c74c78d7cb00ca5f9eb5f6c0f19bd09936ac1"), some (txtV "DATA")⟩]

-- Test Update 2 Delete 1.yaml
#guard executeSparse "Test Update 2 Delete 1" (hexV "39f36a7cb4dfb1b46f03d044265df6a491dffc1034121bc1071a34ddce9bb14b") [
  ⟨"update", some (hexV "df3f619804a92fdb4057192dc43dd748ea778adc52bc498ce80524c014b81119"), some (txtV "DATA")⟩,
  ⟨"update", some (hexV "b40711a88c7039756fb8a73827eabe2c0fe5a0346ca7e0a104adc0fc764f528d"), some (txtV "DATA")⟩,
  ⟨"delete", some (hexV "b40711a88c7039756fb8a73827eabe2c0fe5a0346ca7e0a104adc0fc764f528d"), none⟩]

-- Test Update 2.yaml
#guard executeSparse "Test Update 2" (hexV "8d0ae412ca9ca0afcb3217af8bcd5a673e798bd6fd1dfacad17711e883f494cb") [
  ⟨"update", some (hexV "df3f619804a92fdb4057192dc43dd748ea778adc52bc498ce80524c014b81119"), some (txtV "DATA")⟩,
  ⟨"update", some (hexV "b40711a88c7039756fb8a73827eabe2c0fe5a0346ca7e0a104adc0fc764f528d"), some (txtV "DATA")⟩]

-- Test Update 3.yaml
#guard executeSparse "Test Update 3" (hexV "52295e42d8de2505fdc0cc825ff9fead419cbcf540d8b30c7c4b9c9b94c268b7") [
  ⟨"update", some (hexV "df3f619804a92fdb4057192dc43dd748ea778adc52bc498ce80524c014b81119"), some (txtV "DATA")⟩,
  ⟨"update", some (hexV "b40711a88c7039756fb8a73827eabe2c0fe5a0346ca7e0a104adc0fc764f528d"), some (txtV "DATA")⟩,
  ⟨"update", some (hexV "433ebf5bc03dffa38536673207a21281612cef5faa9bc7a4d5b9be2fdb12cf1a"), some (txtV "DATA")⟩]

-- Test Update 5.yaml
#guard executeSparse "Test Update 5" (hexV "108f731f2414e33ae57e584dc26bd276db07874436b2264ca6e520c658185c6b") [
  ⟨"update", some (hexV "df3f619804a92fdb4057192dc43dd748ea778adc52bc498ce80524c014b81119"), some (txtV "DATA")⟩,
  ⟨"update", some (hexV "b40711a88c7039756fb8a73827eabe2c0fe5a0346ca7e0a104adc0fc764f528d"), some (txtV "DATA")⟩,
  ⟨"update", some (hexV "433ebf5bc03dffa38536673207a21281612cef5faa9bc7a4d5b9be2fdb12cf1a"), some (txtV "DATA")⟩,
  ⟨"update", some (hexV "88185d128d9922e0e6bcd32b07b6c7f20f27968eab447a1d8d1cdf250f79f7d3"), some (txtV "DATA")⟩,
  ⟨"update", some (hexV "1bc5d0e3df0ea12c4d0078668d14924f95106bbe173e196de50fe13a900b0937"), some (txtV "DATA")⟩]

-- Test Update Overwrite Key.yaml
#guard executeSparse "Test Update Overwrite Key" (hexV "dd97174c80e5e5aa3a31c61b05e279c1495c8a07b2a08bca5dbc9fb9774f9457") [
  ⟨"update", some (hexV "df3f619804a92fdb4057192dc43dd748ea778adc52bc498ce80524c014b81119"), some (txtV "DATA")⟩,
  ⟨"update", some (hexV "df3f619804a92fdb4057192dc43dd748ea778adc52bc498ce80524c014b81119"), some (txtV "CHANGE")⟩]

-- Test Update Sparse Union.yaml
#guard executeSparse "Test Update Sparse Union" (hexV "e912e97abc67707b2e6027338292943b53d01a7fbd7b244674128c7e468dd696") [
  ⟨"update", some (hexV "df3f619804a92fdb4057192dc43dd748ea778adc52bc498ce80524c014b81119"), some (txtV "DATA")⟩,
  ⟨"update", some (hexV "433ebf5bc03dffa38536673207a21281612cef5faa9bc7a4d5b9be2fdb12cf1a"), some (txtV "DATA")⟩,
  ⟨"update", some (hexV "1bc5d0e3df0ea12c4d0078668d14924f95106bbe173e196de50fe13a900b0937"), some (txtV "DATA")⟩,
  ⟨"update", some (hexV "b253668f6b59f1ff28522831931e4d3c5a3de533965af22e961735437c0172cb"), some (txtV "DATA")⟩,
  ⟨"update", some (hexV "17eb70034b5b71092521d184c5e7b069d47de657e51aef2be11a00c115036943"), some (txtV "DATA")⟩]

-- Test Update Union.yaml
#guard executeSparse "Test Update Union" (hexV "7e6643325042cfe0fc76626c043b97062af51c7e9fc56665f12b479034bce326") [
  ⟨"update", some (hexV "df3f619804a92fdb4057192dc43dd748ea778adc52bc498ce80524c014b81119"), some (txtV "DATA")⟩,
  ⟨"update", some (hexV "b40711a88c7039756fb8a73827eabe2c0fe5a0346ca7e0a104adc0fc764f528d"), some (txtV "DATA")⟩,
  ⟨"update", some (hexV "433ebf5bc03dffa38536673207a21281612cef5faa9bc7a4d5b9be2fdb12cf1a"), some (txtV "DATA")⟩,
  ⟨"update", some (hexV "88185d128d9922e0e6bcd32b07b6c7f20f27968eab447a1d8d1cdf250f79f7d3"), some (txtV "DATA")⟩,
  ⟨"update", some (hexV "1bc5d0e3df0ea12c4d0078668d14924f95106bbe173e196de50fe13a900b0937"), some (txtV "DATA")⟩,
  ⟨"update", some (hexV "e084a105a7b7d599b8346d3cba5ac51b756d7e29c7ef77fd9eff31fdeae31389"), some (txtV "DATA")⟩,
  ⟨"update", some (hexV "390b36a09502b05d4f8c27aea2636c6b7fd05b27d742ed32074ffea1f888ebe4"), some (txtV "DATA")⟩,
  ⟨"update", some (hexV "c22ceee66b8ab104483c83053173b33f992dd4fcb457284c60ef9d699a1c7059"), some (txtV "DATA")⟩,
  ⟨"update", some (hexV "8092fe01b9ce31a49ce380fc2fe1ee6b6b7d5c15c5f1ecb6ad98c60c4273a435"), some (txtV "DATA")⟩,
  ⟨"update", some (hexV "7fde8eebf388fcff667a89be60430cc6e198b1a78cb603a39cdd09885a3336e3"), some (txtV "DATA")⟩,
  ⟨"update", some (hexV "a7911cdfdc28e6a1867e359ba426081aacfa692fdeb3e978d2a68dd924fa8c3e"), some (txtV "DATA")⟩,
  ⟨"update", some (hexV "21548c66b44347d877e7b405a250121cda87cd494b122f0324f7df3b6cd75f86"), some (txtV "DATA")⟩,
  ⟨"update", some (hexV "bc2d9ddc9857e53598677dbea82a2583879e89ce6c032c77d825187bf3f1a943"), some (txtV "DATA")⟩,
  ⟨"update", some (hexV "58ec452ede72799baf21664edc953297b592ad9e95f2381710593ad7a32f31ef"), some (txtV "DATA")⟩,
  ⟨"update", some (hexV "79a881f99a636d0ad75f16f53668982b59f8bb96c3fbb449155fe7a08dba9cb1"), some (txtV "DATA")⟩]

-- Test Update With Empty Data Performs Delete.yaml
#guard executeSparse "Test Update With Empty Data Performs Delete" (hexV "0000000000000000000000000000000000000000000000000000000000000000") [
  ⟨"update", some (hexV "df3f619804a92fdb4057192dc43dd748ea778adc52bc498ce80524c014b81119"), some (txtV "DATA")⟩,
  ⟨"update", some (hexV "df3f619804a92fdb4057192dc43dd748ea778adc52bc498ce80524c014b81119"), some (txtV "")⟩]

-- Test Update With Empty Data.yaml
#guard executeSparse "Test Update With Empty Data" (hexV "0000000000000000000000000000000000000000000000000000000000000000") [
  ⟨"update", some (hexV "df3f619804a92fdb4057192dc43dd748ea778adc52bc498ce80524c014b81119"), some (txtV "")⟩]

-- Test Update With Repeated Inputs.yaml
#guard executeSparse "Test Update With Repeated Inputs" (hexV "39f36a7cb4dfb1b46f03d044265df6a491dffc1034121bc1071a34ddce9bb14b") [
  ⟨"update", some (hexV "df3f619804a92fdb4057192dc43dd748ea778adc52bc498ce80524c014b81119"), some (txtV "DATA")⟩,
  ⟨"update", some (hexV "df3f619804a92fdb4057192dc43dd748ea778adc52bc498ce80524c014b81119"), some (txtV "DATA")⟩]

-- Test 0 Leaves.yaml
#guard executeProof "Test 0 Leaves" (hexV "ce04537ec4b4b84cf02fa5c50c7810e2f6592e3b00de7423d7c3e7e7d8689a67") [
  hexV "ce04537ec4b4b84cf02fa5c50c7810e2f6592e3b00de7423d7c3e7e7d8689a67"]
  0 0 false

-- Test 1 Leaf Index 0.yaml
#guard executeProof "Test 1 Leaf Index 0" (hexV "40561de71f9ab9b37d9bb1194f96e73d9b24170d13e8fbe62216a5eddea86412") [
  hexV "40561de71f9ab9b37d9bb1194f96e73d9b24170d13e8fbe62216a5eddea86412"]
  0 1 true

-- Test 1 Leaf Invalid Proof Index.yaml
#guard executeProof "Test 1 Leaf Invalid Proof Index" (hexV "bcd692b474ff28ad1b46171b907170afffe213d0a999d37172016371f89b1d50") [
  hexV "bcd692b474ff28ad1b46171b907170afffe213d0a999d37172016371f89b1d50"]
  1 1 false

-- Test 1 Leaf Invalid Root.yaml
#guard executeProof "Test 1 Leaf Invalid Root" (hexV "f1234d75178d892a133a410355a5a990cf75d2f33eba25d575943d4df632f3a4") [
  hexV "8d216d9f1b01ce2f51e3be1243e0da2591679f57bf2d062b9dbaae361558bb21"]
  0 1 false

-- Test 10 Leaves Index 4.yaml
#guard executeProof "Test 10 Leaves Index 4" (hexV "dfdf69ca3d8bbe42effc15304a76d95fc7e2dbf54cbc185a0f0157afb47c27e8") [
  hexV "6fedf050a8f2b04e66b4b4bbe1a1bb083d1e1748c75d74cf2e31428542309ba3",
  hexV "390af00738648704dbee5791e5a0dd83a0cf8e59901a519a2af4630ed9c2147b",
  hexV "085c73fb213d3c8b32d104ca2236bc342eac5c204730cd2115f64e8cb754e66e",
  hexV "01d58263228eac906f24a2b5f7aa53a59cd70b5895a262e8eb8151e3d571f694",
  hexV "3462cc7c1d1bb60c889a6a43a71a4c23c7f4a9ab5c917a63170c182bc57b74e1"]
  4 10 true

-- Test 100 Leaves Index 10.yaml
#guard executeProof "Test 100 Leaves Index 10" (hexV "a9b6d97f45ed55e2242fa995c5d412a46a2e57a5a3f676aa9e60d973479c2446") [
  hexV "d1b2f3f5c5a9e0b1d31e9c7060682c161cfd429abc6dc709588a0f7a8b989e6e",
  hexV "51159906d4d62672664766ed8757915c7c925cfee778b8b3359df37a73ebeca7",
  hexV "2b4f180744f30b41daad98a0d9f80fd8302de65ef33487e75b3eec6122c8e3f3",
  hexV "59c518c8c13721afd212b11680680ed64270e79b503f5e7e342b9b201e7fa4f2",
  hexV "4175b79f36911a6c629de2e70b03ff9cbfc51867ad71ef6462a8999c65783ef1",
  hexV "8cdc18e4cb221ba071cd4804726794719e9202b8b95d8148e4492d3d76a4e9aa",
  hexV "2434ae470b4d9f05943e65b63236ae7888281d06f9412068f602ca2662e73471",
  hexV "1b7cc44323e578aa1380f7b5012ede68663732413625a0028c1c0d3e7652baa9"]
  10 100 true

-- Test 1024 Leaves Index 512.yaml
#guard executeProof "Test 1024 Leaves Index 512" (hexV "1a57447fae64c1b78d02a05ac5255b2d1b350b8ce10c1180002288a9a49cf6fb") [
  hexV "c00574a947cb3031d10fce0980c3711c70824c191e29c913f8da8b0d42da3c2e",
  hexV "5f7a260b5b5dc663ef6a338ba673c71ef611e4a5e52dc41e9bd82dd9a9507c30",
  hexV "51dbb7b62080c64fbc976425d0032933d1126df6f223420b332297c8ca133cee",
  hexV "52c32361aabbcdb8a2d7fa6ede781716cfcb7e2708a7d1cae69b242154ba4d65",
  hexV "ef41093d90dd8ece225c19f2073dfea48890f10087dcc6451c21d76a91feecfb",
  hexV "d306531e7c69cb02b7b4008281007360d00af0f640d80d44ac9730a263582967",
  hexV "200bf4ae7f3d12cfa374d72d8d73cf320b3f38bfb3dde85793a8d06f040da181",
  hexV "c9b8de8d214f5cf0ca3aeae52def4456268f3c1f06e905ed741bc18b10844f8f",
  hexV "a09d8a561023e032a8b560f1e85d300a3122b0cdf83b47798802d25d4db1083c",
  hexV "782b6c333967ceb052cc479f83da4cd6d9e3b75c963cd4f4c4e8f1d7dbcb3436",
  hexV "854f3ff8757852014af53efa1e8b88622281141ea5ad8f1bd21a133f467af2c4"]
  512 1024 true

-- Test 1024 Leaves Invalid Root.yaml
#guard executeProof "Test 1024 Leaves Invalid Root" (hexV "f1234d75178d892a133a410355a5a990cf75d2f33eba25d575943d4df632f3a4") [
  hexV "0fd57bb7146938576395aa785eef8970dc33f294fa2d9a77fc1598e9084be008",
  hexV "bc6abd3c380c4d69085c2f879e784f096fcd0a9e921b359fecf87ef76ca4bc67",
  hexV "c82561818abd7843b694824f21024c134158ce89445e7dc4a4aebebdb5a7dd5e",
  hexV "f94219552c116bad634d8f9c98157ee414741ec053ea7f1ff3412df4a7b2899f",
  hexV "617e973c2ac3dd9adfeb944ca1ee4d54053e2520c7d7d435872dd60f6c45c1bb",
  hexV "3fe1e227f51971bff35c83338f48282c81f94edb7577cce7bb56661e14aab740",
  hexV "cbabcf9e2f7ef7a85eb98e49380236c767ec32cfac1c878a03b22492f84916a6",
  hexV "2689ef456cd69c7af07084ab16922331127544f038627bfa04f8d95effd1150c",
  hexV "8007f304566161b05a29f4380dee1b5f4178b1e0a5dfadcf6613f6e15a0ec761",
  hexV "6d8b4dd3156d16df1883acf6d6eb22f27635b44459b09a5a77a7bda6fb919d13",
  hexV "c2a27c22ec6bfd35c83dcdf5379539c0865c23341ef8abba1248aa44fe36d23f"]
  512 1024 false

-- a wrong expectation is reported
#guard Test.execute standard ⟨true, true, .w64⟩ Sha256.sha256 ⟨"t", hexV (String.ofList (List.replicate 64 '1')), []⟩ matches .error (.err (.failed "t"))
#guard Test.execute standard ⟨true, true, .w64⟩ Sha256.sha256 ⟨"t", hexV "12", [⟨"insert", none, none⟩]⟩ matches .error (.err (.unsupportedAction "insert"))
#guard Test.execute standard ⟨true, true, .w64⟩ Sha256.sha256 ⟨"t", hexV "1", []⟩ matches .error (.err .decodingError)
#guard Test.execute standard ⟨true, true, .w64⟩ Sha256.sha256 ⟨"t", hexV "12", []⟩ matches .error (.panic .unwrapNone)

end FuelMerkle.Tests
