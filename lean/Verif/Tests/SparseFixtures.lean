import Verif.Tests.Util

/-
The sparse tree fixtures of `/repo/tests-data/fixtures/*.yaml`, transcribed.
-/
namespace FuelMerkle.Tests

-- Test Delete Non-existent Key.yaml
#guard checkSparse [
  .update "df3f619804a92fdb4057192dc43dd748ea778adc52bc498ce80524c014b81119" "DATA",
  .update "b40711a88c7039756fb8a73827eabe2c0fe5a0346ca7e0a104adc0fc764f528d" "DATA",
  .update "433ebf5bc03dffa38536673207a21281612cef5faa9bc7a4d5b9be2fdb12cf1a" "DATA",
  .update "88185d128d9922e0e6bcd32b07b6c7f20f27968eab447a1d8d1cdf250f79f7d3" "DATA",
  .update "1bc5d0e3df0ea12c4d0078668d14924f95106bbe173e196de50fe13a900b0937" "DATA",
  .delete "72034de8a594b12de51205feba7ade26899d8425e81eac7f8c296bf974a51c60"]
  "108f731f2414e33ae57e584dc26bd276db07874436b2264ca6e520c658185c6b"

-- Test Delete Sparse Union.yaml
#guard checkSparse [
  .update "df3f619804a92fdb4057192dc43dd748ea778adc52bc498ce80524c014b81119" "DATA",
  .update "b40711a88c7039756fb8a73827eabe2c0fe5a0346ca7e0a104adc0fc764f528d" "DATA",
  .update "433ebf5bc03dffa38536673207a21281612cef5faa9bc7a4d5b9be2fdb12cf1a" "DATA",
  .update "88185d128d9922e0e6bcd32b07b6c7f20f27968eab447a1d8d1cdf250f79f7d3" "DATA",
  .update "1bc5d0e3df0ea12c4d0078668d14924f95106bbe173e196de50fe13a900b0937" "DATA",
  .update "221f8af2372a95064f2ef7d7712216a9ab46e7ef98482fd237e106f83eaa7569" "DATA",
  .update "b253668f6b59f1ff28522831931e4d3c5a3de533965af22e961735437c0172cb" "DATA",
  .update "1561ade0621c5acf44b780521f95a1e0b19b4e5032945b860c4032fc28a3a23b" "DATA",
  .update "17eb70034b5b71092521d184c5e7b069d47de657e51aef2be11a00c115036943" "DATA",
  .update "3b28a6c3766c6295adad976d349705ef49393fbfdebe4facb5862d2cdfa285d3" "DATA",
  .delete "b40711a88c7039756fb8a73827eabe2c0fe5a0346ca7e0a104adc0fc764f528d",
  .delete "88185d128d9922e0e6bcd32b07b6c7f20f27968eab447a1d8d1cdf250f79f7d3",
  .delete "221f8af2372a95064f2ef7d7712216a9ab46e7ef98482fd237e106f83eaa7569",
  .delete "1561ade0621c5acf44b780521f95a1e0b19b4e5032945b860c4032fc28a3a23b",
  .delete "3b28a6c3766c6295adad976d349705ef49393fbfdebe4facb5862d2cdfa285d3"]
  "e912e97abc67707b2e6027338292943b53d01a7fbd7b244674128c7e468dd696"

-- Test Empty Root.yaml
#guard checkSparse [
]
  "0000000000000000000000000000000000000000000000000000000000000000"

-- Test Interleaved Update Delete.yaml
#guard checkSparse [
  .update "df3f619804a92fdb4057192dc43dd748ea778adc52bc498ce80524c014b81119" "DATA",
  .update "b40711a88c7039756fb8a73827eabe2c0fe5a0346ca7e0a104adc0fc764f528d" "DATA",
  .update "433ebf5bc03dffa38536673207a21281612cef5faa9bc7a4d5b9be2fdb12cf1a" "DATA",
  .update "88185d128d9922e0e6bcd32b07b6c7f20f27968eab447a1d8d1cdf250f79f7d3" "DATA",
  .update "1bc5d0e3df0ea12c4d0078668d14924f95106bbe173e196de50fe13a900b0937" "DATA",
  .update "221f8af2372a95064f2ef7d7712216a9ab46e7ef98482fd237e106f83eaa7569" "DATA",
  .update "b253668f6b59f1ff28522831931e4d3c5a3de533965af22e961735437c0172cb" "DATA",
  .update "1561ade0621c5acf44b780521f95a1e0b19b4e5032945b860c4032fc28a3a23b" "DATA",
  .update "17eb70034b5b71092521d184c5e7b069d47de657e51aef2be11a00c115036943" "DATA",
  .update "3b28a6c3766c6295adad976d349705ef49393fbfdebe4facb5862d2cdfa285d3" "DATA",
  .delete "221f8af2372a95064f2ef7d7712216a9ab46e7ef98482fd237e106f83eaa7569",
  .delete "b253668f6b59f1ff28522831931e4d3c5a3de533965af22e961735437c0172cb",
  .delete "1561ade0621c5acf44b780521f95a1e0b19b4e5032945b860c4032fc28a3a23b",
  .delete "17eb70034b5b71092521d184c5e7b069d47de657e51aef2be11a00c115036943",
  .delete "3b28a6c3766c6295adad976d349705ef49393fbfdebe4facb5862d2cdfa285d3",
  .delete "e084a105a7b7d599b8346d3cba5ac51b756d7e29c7ef77fd9eff31fdeae31389",
  .delete "390b36a09502b05d4f8c27aea2636c6b7fd05b27d742ed32074ffea1f888ebe4",
  .delete "c22ceee66b8ab104483c83053173b33f992dd4fcb457284c60ef9d699a1c7059",
  .delete "8092fe01b9ce31a49ce380fc2fe1ee6b6b7d5c15c5f1ecb6ad98c60c4273a435",
  .delete "7fde8eebf388fcff667a89be60430cc6e198b1a78cb603a39cdd09885a3336e3",
  .update "e084a105a7b7d599b8346d3cba5ac51b756d7e29c7ef77fd9eff31fdeae31389" "DATA",
  .update "390b36a09502b05d4f8c27aea2636c6b7fd05b27d742ed32074ffea1f888ebe4" "DATA",
  .update "c22ceee66b8ab104483c83053173b33f992dd4fcb457284c60ef9d699a1c7059" "DATA",
  .update "8092fe01b9ce31a49ce380fc2fe1ee6b6b7d5c15c5f1ecb6ad98c60c4273a435" "DATA",
  .update "7fde8eebf388fcff667a89be60430cc6e198b1a78cb603a39cdd09885a3336e3" "DATA",
  .update "9246be1e9ba9f5de5baf766a256eb725e9a7551fb93d7faa793c938e0f41de35" "DATA",
  .update "5085cb99dbe1e374ccd321e5b58182d2c42cf4840c68cfab17b0618a8285e7d6" "DATA",
  .update "8e00d1c0c8ffe94540e534e256d4589be3e3865dc0559a732697aef38a364e83" "DATA",
  .update "e9f3440e5518839aa600db07b5400f8ec287ce0321fad602afd103ce447a1c98" "DATA",
  .update "14236fe421fe9ddb8377a19b60ce71dd655704bcefc225c9287fb11127ba6569" "DATA",
  .delete "9246be1e9ba9f5de5baf766a256eb725e9a7551fb93d7faa793c938e0f41de35",
  .delete "5085cb99dbe1e374ccd321e5b58182d2c42cf4840c68cfab17b0618a8285e7d6",
  .delete "8e00d1c0c8ffe94540e534e256d4589be3e3865dc0559a732697aef38a364e83",
  .delete "e9f3440e5518839aa600db07b5400f8ec287ce0321fad602afd103ce447a1c98",
  .delete "14236fe421fe9ddb8377a19b60ce71dd655704bcefc225c9287fb11127ba6569",
  .delete "a7911cdfdc28e6a1867e359ba426081aacfa692fdeb3e978d2a68dd924fa8c3e",
  .delete "21548c66b44347d877e7b405a250121cda87cd494b122f0324f7df3b6cd75f86",
  .delete "bc2d9ddc9857e53598677dbea82a2583879e89ce6c032c77d825187bf3f1a943",
  .delete "58ec452ede72799baf21664edc953297b592ad9e95f2381710593ad7a32f31ef",
  .delete "79a881f99a636d0ad75f16f53668982b59f8bb96c3fbb449155fe7a08dba9cb1",
  .update "a7911cdfdc28e6a1867e359ba426081aacfa692fdeb3e978d2a68dd924fa8c3e" "DATA",
  .update "21548c66b44347d877e7b405a250121cda87cd494b122f0324f7df3b6cd75f86" "DATA",
  .update "bc2d9ddc9857e53598677dbea82a2583879e89ce6c032c77d825187bf3f1a943" "DATA",
  .update "58ec452ede72799baf21664edc953297b592ad9e95f2381710593ad7a32f31ef" "DATA",
  .update "79a881f99a636d0ad75f16f53668982b59f8bb96c3fbb449155fe7a08dba9cb1" "DATA",
  .update "282a163f3e6f52ab35cf838079369bce33cf5a1f151d2822846095a6d07e1ae2" "DATA",
  .update "c1c3c8fdf22e3a4adef796c8fdaf739d7d3b222f995891eb8f495ca71fb932a8" "DATA",
  .update "688e94a51ee508a95e761294afb7a6004b432c15d9890c80ddf23bde8caa4c26" "DATA",
  .update "c006af35e3b4ca022ab986593a148b4f196f186168ee96604eeaa7e338e66ac1" "DATA",
  .update "c1a9fae908008d34f389b1dba2a1a8e8301f7a942412ef6e6299c9e27e89dfaa" "DATA",
  .delete "282a163f3e6f52ab35cf838079369bce33cf5a1f151d2822846095a6d07e1ae2",
  .delete "c1c3c8fdf22e3a4adef796c8fdaf739d7d3b222f995891eb8f495ca71fb932a8",
  .delete "688e94a51ee508a95e761294afb7a6004b432c15d9890c80ddf23bde8caa4c26",
  .delete "c006af35e3b4ca022ab986593a148b4f196f186168ee96604eeaa7e338e66ac1",
  .delete "c1a9fae908008d34f389b1dba2a1a8e8301f7a942412ef6e6299c9e27e89dfaa",
  .delete "560231689713a5933b6c8ac3e6b2f243730e49e1c6b0c610c41e8e8dad26044c",
  .delete "fe5b0deca006174e2151088e1a7d60fe91819467db5d709ae5a19c01a3cd3e3f",
  .delete "2de44621c76edf2debbc2df62ccb52c5036b1919dca3af0c0a886cc48dbfaeba",
  .delete "83440636eff7b2ec0f78ef7b8e480a033e8aeb67e6ecb657ce9bcdfdb21aa744",
  .delete "eaaf1805f2ec6a18eee5a7909f79908651341965d9f0b9de8d45d9262e5735ae"]
  "7e6643325042cfe0fc76626c043b97062af51c7e9fc56665f12b479034bce326"

-- Test Update 1 Delete 1.yaml
#guard checkSparse [
  .update "df3f619804a92fdb4057192dc43dd748ea778adc52bc498ce80524c014b81119" "DATA",
  .delete "df3f619804a92fdb4057192dc43dd748ea778adc52bc498ce80524c014b81119"]
  "0000000000000000000000000000000000000000000000000000000000000000"

-- Test Update 1.yaml
#guard checkSparse [
  .update "df3f619804a92fdb4057192dc43dd748ea778adc52bc498ce80524c014b81119" "DATA"]
  "39f36a7cb4dfb1b46f03d044265df6a491dffc1034121bc1071a34ddce9bb14b"

-- Test Update 10 Delete 5.yaml
#guard checkSparse [
  .update "df3f619804a92fdb4057192dc43dd748ea778adc52bc498ce80524c014b81119" "DATA",
  .update "b40711a88c7039756fb8a73827eabe2c0fe5a0346ca7e0a104adc0fc764f528d" "DATA",
  .update "433ebf5bc03dffa38536673207a21281612cef5faa9bc7a4d5b9be2fdb12cf1a" "DATA",
  .update "88185d128d9922e0e6bcd32b07b6c7f20f27968eab447a1d8d1cdf250f79f7d3" "DATA",
  .update "1bc5d0e3df0ea12c4d0078668d14924f95106bbe173e196de50fe13a900b0937" "DATA",
  .update "221f8af2372a95064f2ef7d7712216a9ab46e7ef98482fd237e106f83eaa7569" "DATA",
  .update "b253668f6b59f1ff28522831931e4d3c5a3de533965af22e961735437c0172cb" "DATA",
  .update "1561ade0621c5acf44b780521f95a1e0b19b4e5032945b860c4032fc28a3a23b" "DATA",
  .update "17eb70034b5b71092521d184c5e7b069d47de657e51aef2be11a00c115036943" "DATA",
  .update "3b28a6c3766c6295adad976d349705ef49393fbfdebe4facb5862d2cdfa285d3" "DATA",
  .delete "221f8af2372a95064f2ef7d7712216a9ab46e7ef98482fd237e106f83eaa7569",
  .delete "b253668f6b59f1ff28522831931e4d3c5a3de533965af22e961735437c0172cb",
  .delete "1561ade0621c5acf44b780521f95a1e0b19b4e5032945b860c4032fc28a3a23b",
  .delete "17eb70034b5b71092521d184c5e7b069d47de657e51aef2be11a00c115036943",
  .delete "3b28a6c3766c6295adad976d349705ef49393fbfdebe4facb5862d2cdfa285d3"]
  "108f731f2414e33ae57e584dc26bd276db07874436b2264ca6e520c658185c6b"

-- Test Update 10.yaml
#guard checkSparse [
  .update "df3f619804a92fdb4057192dc43dd748ea778adc52bc498ce80524c014b81119" "DATA",
  .update "b40711a88c7039756fb8a73827eabe2c0fe5a0346ca7e0a104adc0fc764f528d" "DATA",
  .update "433ebf5bc03dffa38536673207a21281612cef5faa9bc7a4d5b9be2fdb12cf1a" "DATA",
  .update "88185d128d9922e0e6bcd32b07b6c7f20f27968eab447a1d8d1cdf250f79f7d3" "DATA",
  .update "1bc5d0e3df0ea12c4d0078668d14924f95106bbe173e196de50fe13a900b0937" "DATA",
  .update "221f8af2372a95064f2ef7d7712216a9ab46e7ef98482fd237e106f83eaa7569" "DATA",
  .update "b253668f6b59f1ff28522831931e4d3c5a3de533965af22e961735437c0172cb" "DATA",
  .update "1561ade0621c5acf44b780521f95a1e0b19b4e5032945b860c4032fc28a3a23b" "DATA",
  .update "17eb70034b5b71092521d184c5e7b069d47de657e51aef2be11a00c115036943" "DATA",
  .update "3b28a6c3766c6295adad976d349705ef49393fbfdebe4facb5862d2cdfa285d3" "DATA"]
  "21ca4917e99da99a61de93deaf88c400d4c082991cb95779e444d43dd13e8849"

-- Test Update 100.yaml
#guard checkSparse [
  .update "df3f619804a92fdb4057192dc43dd748ea778adc52bc498ce80524c014b81119" "DATA",
  .update "b40711a88c7039756fb8a73827eabe2c0fe5a0346ca7e0a104adc0fc764f528d" "DATA",
  .update "433ebf5bc03dffa38536673207a21281612cef5faa9bc7a4d5b9be2fdb12cf1a" "DATA",
  .update "88185d128d9922e0e6bcd32b07b6c7f20f27968eab447a1d8d1cdf250f79f7d3" "DATA",
  .update "1bc5d0e3df0ea12c4d0078668d14924f95106bbe173e196de50fe13a900b0937" "DATA",
  .update "221f8af2372a95064f2ef7d7712216a9ab46e7ef98482fd237e106f83eaa7569" "DATA",
  .update "b253668f6b59f1ff28522831931e4d3c5a3de533965af22e961735437c0172cb" "DATA",
  .update "1561ade0621c5acf44b780521f95a1e0b19b4e5032945b860c4032fc28a3a23b" "DATA",
  .update "17eb70034b5b71092521d184c5e7b069d47de657e51aef2be11a00c115036943" "DATA",
  .update "3b28a6c3766c6295adad976d349705ef49393fbfdebe4facb5862d2cdfa285d3" "DATA",
  .update "e084a105a7b7d599b8346d3cba5ac51b756d7e29c7ef77fd9eff31fdeae31389" "DATA",
  .update "390b36a09502b05d4f8c27aea2636c6b7fd05b27d742ed32074ffea1f888ebe4" "DATA",
  .update "c22ceee66b8ab104483c83053173b33f992dd4fcb457284c60ef9d699a1c7059" "DATA",
  .update "8092fe01b9ce31a49ce380fc2fe1ee6b6b7d5c15c5f1ecb6ad98c60c4273a435" "DATA",
  .update "7fde8eebf388fcff667a89be60430cc6e198b1a78cb603a39cdd09885a3336e3" "DATA",
  .update "9246be1e9ba9f5de5baf766a256eb725e9a7551fb93d7faa793c938e0f41de35" "DATA",
  .update "5085cb99dbe1e374ccd321e5b58182d2c42cf4840c68cfab17b0618a8285e7d6" "DATA",
  .update "8e00d1c0c8ffe94540e534e256d4589be3e3865dc0559a732697aef38a364e83" "DATA",
  .update "e9f3440e5518839aa600db07b5400f8ec287ce0321fad602afd103ce447a1c98" "DATA",
  .update "14236fe421fe9ddb8377a19b60ce71dd655704bcefc225c9287fb11127ba6569" "DATA",
  .update "a7911cdfdc28e6a1867e359ba426081aacfa692fdeb3e978d2a68dd924fa8c3e" "DATA",
  .update "21548c66b44347d877e7b405a250121cda87cd494b122f0324f7df3b6cd75f86" "DATA",
  .update "bc2d9ddc9857e53598677dbea82a2583879e89ce6c032c77d825187bf3f1a943" "DATA",
  .update "58ec452ede72799baf21664edc953297b592ad9e95f2381710593ad7a32f31ef" "DATA",
  .update "79a881f99a636d0ad75f16f53668982b59f8bb96c3fbb449155fe7a08dba9cb1" "DATA",
  .update "282a163f3e6f52ab35cf838079369bce33cf5a1f151d2822846095a6d07e1ae2" "DATA",
  .update "c1c3c8fdf22e3a4adef796c8fdaf739d7d3b222f995891eb8f495ca71fb932a8" "DATA",
  .update "688e94a51ee508a95e761294afb7a6004b432c15d9890c80ddf23bde8caa4c26" "DATA",
  .update "c006af35e3b4ca022ab986593a148b4f196f186168ee96604eeaa7e338e66ac1" "DATA",
  .update "c1a9fae908008d34f389b1dba2a1a8e8301f7a942412ef6e6299c9e27e89dfaa" "DATA",
  .update "560231689713a5933b6c8ac3e6b2f243730e49e1c6b0c610c41e8e8dad26044c" "DATA",
  .update "fe5b0deca006174e2151088e1a7d60fe91819467db5d709ae5a19c01a3cd3e3f" "DATA",
  .update "2de44621c76edf2debbc2df62ccb52c5036b1919dca3af0c0a886cc48dbfaeba" "DATA",
  .update "83440636eff7b2ec0f78ef7b8e480a033e8aeb67e6ecb657ce9bcdfdb21aa744" "DATA",
  .update "eaaf1805f2ec6a18eee5a7909f79908651341965d9f0b9de8d45d9262e5735ae" "DATA",
  .update "6870f86f6560dd5b0d0a47d0ae89df6a96b6a47a6258940060d75ff759634158" "DATA",
  .update "e882dd6a247f4ada1f700f1918bd23b7c730ad62af15f5cec8de976cbad09691" "DATA",
  .update "51be0458d20b1ce2ff5316e7e473109c26f5d8b457037edf8c4529f6ff82bddb" "DATA",
  .update "0f65dd2d76efb602f9554514892751d5cf336a56c3888aa8cb122e970016949a" "DATA",
  .update "b9098fe78517adc23218f8cd7d804f55c977fb22185a4d8e752ab7e82e5c1d89" "DATA",
  .update "95534981420d9a1e5d3cd3b567c6e21f920742087ecf44c187e077cdc8497ac2" "DATA",
  .update "c8d26116ed30f9816a05fdf061b2535145472f388d9814e96f33f08369dbcbd0" "DATA",
  .update "ae3c8b8d99a39542f78af83dbbb42c81cd94199ec1b5f60a0801063e95842570" "DATA",
  .update "d596e806d34bd7d4304b9f00ec340f02fa90c4faa17fe39729cb15c76e0de77f" "DATA",
  .update "552d7d672c5bbbccfb210a425e36a1d65bc663d3d3c395114c8ebc9c7cf28394" "DATA",
  .update "5a05f87d329a8321f2006f4f3b11b810aeddcd21cb383b61df03824074eaffc9" "DATA",
  .update "daceee899cdb68711b2b16b1708d684b193062163a2ef8ca80e5a3f002212822" "DATA",
  .update "6b0e4bfa8dc9b19ccc121b2bd0d22da7298d7a4d72b4ba1df1bbec5d56800a66" "DATA",
  .update "2c19fc328bfccab923ee092d9123a9ccc9fb37bbf0d2c65d2fe12b6684ff4857" "DATA",
  .update "cc74c0c353fe2c007aff8dc7db556638f52260fea1dc0bce2f04002db6ad90ce" "DATA",
  .update "1fc244af2b96d0169a177e2559af29e0484744e4b8501d1044d76c9f7b3cf307" "DATA",
  .update "8ef3b0d7c4476e2c0a91ccc5867740a0549313b585345c1d12587ca2ed04e9f5" "DATA",
  .update "46cecbeaa7de6866910a4856ef1f7378f9dd9dfa698578637ce4ecb33e7f7bac" "DATA",
  .update "0d21caa7d0c6f1ff692603abec4315c560792923a6cfa5729ef8dd6d8220e0a1" "DATA",
  .update "0cc6a4ccca98a6360d42fde83780517edbfc32b300cd3ba0e0a5453a8166697a" "DATA",
  .update "683babc0c420c80a762490d4d73b271876ab07f11c80553f6e9125fb82c734f0" "DATA",
  .update "f8de494d620f85b1cfed002bb1ea4fbf93f7eaa4b4b8a5c7f145b3cab041c0d3" "DATA",
  .update "75ce1f4e6c052ea6fec089042a96928fda84ea969c99b35f6894a1819226ac5e" "DATA",
  .update "e696a8ec6b7f294aa56059125664931f12997987bb52fffefc209d35492adc3c" "DATA",
  .update "af0ff5439963767457709e63313da23382a6292190e2de1ba9c6c87dc6a1927e" "DATA",
  .update "4082763076bdaee3a85e52eb5893169d45d057397616251e0e699e6403238e66" "DATA",
  .update "15b165510f75144be8633336a97ac62c664d5c436db297fc13fb4d3ac147d7fd" "DATA",
  .update "31b67dba7cfd6e2d7540f9c96d90a45b8f2d44956620723024d4e1beeacd4602" "DATA",
  .update "d99e58435243d9fef9c88273b8d553b4fba4d0baf8009d29eae74fa99e0d9f57" "DATA",
  .update "d88c86f15bbea365d658ad95a81d45367c465f7af6f7264fb077f01747ddc77d" "DATA",
  .update "03e3c2420f5066a5fa6e36735ed8cc4f6a251046263e1a6024f009deeee3b952" "DATA",
  .update "825ac1bb838d399fb1ba55a6247e2c8c7a0c3ec25898f3c94dbfb51fa6e73951" "DATA",
  .update "ad286c64373644140ff927b256b8415467b5d27645ff997010b15519d022631b" "DATA",
  .update "03a88c8867b3fbcfeefc3270af46afbeb74a27e12cad758e188154cb4aa923dc" "DATA",
  .update "569ce7ffc5ab3343d40276040602bb1e6d9a9f9aeb5c25e2c65f2d3c1b867ff4" "DATA",
  .update "514970ce425bbbe11b969e5cd683f4c1b7722f7f026b45006c53a8031b2fc32e" "DATA",
  .update "719b774d7d3b2ebd5e2ce1cde4f59a2ebb8f1f7069daa0baecc564a83abd5bc6" "DATA",
  .update "a5e537813128ccca735d65a9027cd5057d164fc78f25e55128e17a501851d585" "DATA",
  .update "3f08f60bf2a0754139d918d80882ef46cd0257bd2f62ef5d8a1e28175c4360cc" "DATA",
  .update "5d6941b983cd61008a67cd3865fe78cc6a4f0966f2c3fb27e1a3ec6667a545dd" "DATA",
  .update "90a21fd1ef7b2ead7bf8b13df631f94dd0b1c0ab174a64fb9ea5d37fdad4b150" "DATA",
  .update "dbf8f061b38993c8d7dc1f521c3df09f31359d1fb947e19efac98362f99d46de" "DATA",
  .update "0a62d0f80072eafa5d94b92a01043d978e9ec6a473f4d4c883db99221a78fe2f" "DATA",
  .update "b310919be4d5c7892739294545b85928746fa6b90e568f04af5fb6c48379c3a9" "DATA",
  .update "4149d67891c7efddad38eb590d537d3f33a25d6454ffba671e1c20cf5824a22c" "DATA",
  .update "16ab79353cdbc2bef69a106f68d5f6b5adc70bce130df5a523212826ef117d3f" "DATA",
  .update "d8063c1eafe3b5fd49d4c8e8737316ba79a8729f7364426382c575422af3f84d" "DATA",
  .update "59310b9b2c75881cf3edca5da5a755ed36ed737945a84c6e50c657de0c513c7e" "DATA",
  .update "800b108f968347f00ac77eb6511893e19dde9e8aba637d28efceb636369a817c" "DATA",
  .update "acdcbc039caf8f6b1cbc24d2f87a03785d8f60ed23be607d17950d62ea8c33f5" "DATA",
  .update "dfe4224c822504739c7efea90fd28bf76a31a68ecb99096166eab251f5535a17" "DATA",
  .update "eb23c65a4244616063b70d7502b960e5d5d07b51a02472ab8a01e7482da34e47" "DATA",
  .update "97efc1907815f13e6a02d4149a09e9a5389388ed6def2c1260cfec26d3b19f3f" "DATA",
  .update "3523d19074cac2abcc3ace63b121eefa537c8e4070e30875ba5685f46bb010ef" "DATA",
  .update "b16a7efa6c4b528ecbe9db04df4d2bb4e555efe819233c9134311fa0a463e5f5" "DATA",
  .update "702a137706cb2ef04842c238c2b37fed632682838b99b0a6f504cf6b0188dafd" "DATA",
  .update "b70aeff402d30d7d55ee164fd109ce3942fe50343ae513b3c3f7be9db96ea46d" "DATA",
  .update "32fc4a6ccd676bae363546309128ef7c88d983c78688d2d53584af11c8a0be9c" "DATA",
  .update "43b728ce5e336e2e48a38a61805a73c094e7c1e6bbd6f85bedd679986aea5bfb" "DATA",
  .update "920218ce21e9b273c4110f07c5803f74266a7b9ca388285752a3924acfb96cf6" "DATA",
  .update "b894454077582b5d5aad1f58872264afc2ddb8d95683fb8c005e3f98c2aa26f8" "DATA",
  .update "ca3076acbb6ec2b695ebf174caa57ef3f8421707948a72029cc3836b9572c9d7" "DATA",
  .update "d2febf3079d64fcc48205885b66974fbecac6162a3e75761b082c228e364dd7e" "DATA",
  .update "0f471c818c185f9c35ddd6c05738371e15c29a8f9d9a3b244f30652f48c2aa69" "DATA",
  .update "a40fb80ad4287819ecda5efac01c74c78d7cb00ca5f9eb5f6c0f19bd09936ac1" "DATA"]
  "82bf747d455a55e2f7044a03536fc43f1f55d43b855e72c0110c986707a23e4d"

-- Test Update 2 Delete 1.yaml
#guard checkSparse [
  .update "df3f619804a92fdb4057192dc43dd748ea778adc52bc498ce80524c014b81119" "DATA",
  .update "b40711a88c7039756fb8a73827eabe2c0fe5a0346ca7e0a104adc0fc764f528d" "DATA",
  .delete "b40711a88c7039756fb8a73827eabe2c0fe5a0346ca7e0a104adc0fc764f528d"]
  "39f36a7cb4dfb1b46f03d044265df6a491dffc1034121bc1071a34ddce9bb14b"

-- Test Update 2.yaml
#guard checkSparse [
  .update "df3f619804a92fdb4057192dc43dd748ea778adc52bc498ce80524c014b81119" "DATA",
  .update "b40711a88c7039756fb8a73827eabe2c0fe5a0346ca7e0a104adc0fc764f528d" "DATA"]
  "8d0ae412ca9ca0afcb3217af8bcd5a673e798bd6fd1dfacad17711e883f494cb"

-- Test Update 3.yaml
#guard checkSparse [
  .update "df3f619804a92fdb4057192dc43dd748ea778adc52bc498ce80524c014b81119" "DATA",
  .update "b40711a88c7039756fb8a73827eabe2c0fe5a0346ca7e0a104adc0fc764f528d" "DATA",
  .update "433ebf5bc03dffa38536673207a21281612cef5faa9bc7a4d5b9be2fdb12cf1a" "DATA"]
  "52295e42d8de2505fdc0cc825ff9fead419cbcf540d8b30c7c4b9c9b94c268b7"

-- Test Update 5.yaml
#guard checkSparse [
  .update "df3f619804a92fdb4057192dc43dd748ea778adc52bc498ce80524c014b81119" "DATA",
  .update "b40711a88c7039756fb8a73827eabe2c0fe5a0346ca7e0a104adc0fc764f528d" "DATA",
  .update "433ebf5bc03dffa38536673207a21281612cef5faa9bc7a4d5b9be2fdb12cf1a" "DATA",
  .update "88185d128d9922e0e6bcd32b07b6c7f20f27968eab447a1d8d1cdf250f79f7d3" "DATA",
  .update "1bc5d0e3df0ea12c4d0078668d14924f95106bbe173e196de50fe13a900b0937" "DATA"]
  "108f731f2414e33ae57e584dc26bd276db07874436b2264ca6e520c658185c6b"

-- Test Update Overwrite Key.yaml
#guard checkSparse [
  .update "df3f619804a92fdb4057192dc43dd748ea778adc52bc498ce80524c014b81119" "DATA",
  .update "df3f619804a92fdb4057192dc43dd748ea778adc52bc498ce80524c014b81119" "CHANGE"]
  "dd97174c80e5e5aa3a31c61b05e279c1495c8a07b2a08bca5dbc9fb9774f9457"

-- Test Update Sparse Union.yaml
#guard checkSparse [
  .update "df3f619804a92fdb4057192dc43dd748ea778adc52bc498ce80524c014b81119" "DATA",
  .update "433ebf5bc03dffa38536673207a21281612cef5faa9bc7a4d5b9be2fdb12cf1a" "DATA",
  .update "1bc5d0e3df0ea12c4d0078668d14924f95106bbe173e196de50fe13a900b0937" "DATA",
  .update "b253668f6b59f1ff28522831931e4d3c5a3de533965af22e961735437c0172cb" "DATA",
  .update "17eb70034b5b71092521d184c5e7b069d47de657e51aef2be11a00c115036943" "DATA"]
  "e912e97abc67707b2e6027338292943b53d01a7fbd7b244674128c7e468dd696"

-- Test Update Union.yaml
#guard checkSparse [
  .update "df3f619804a92fdb4057192dc43dd748ea778adc52bc498ce80524c014b81119" "DATA",
  .update "b40711a88c7039756fb8a73827eabe2c0fe5a0346ca7e0a104adc0fc764f528d" "DATA",
  .update "433ebf5bc03dffa38536673207a21281612cef5faa9bc7a4d5b9be2fdb12cf1a" "DATA",
  .update "88185d128d9922e0e6bcd32b07b6c7f20f27968eab447a1d8d1cdf250f79f7d3" "DATA",
  .update "1bc5d0e3df0ea12c4d0078668d14924f95106bbe173e196de50fe13a900b0937" "DATA",
  .update "e084a105a7b7d599b8346d3cba5ac51b756d7e29c7ef77fd9eff31fdeae31389" "DATA",
  .update "390b36a09502b05d4f8c27aea2636c6b7fd05b27d742ed32074ffea1f888ebe4" "DATA",
  .update "c22ceee66b8ab104483c83053173b33f992dd4fcb457284c60ef9d699a1c7059" "DATA",
  .update "8092fe01b9ce31a49ce380fc2fe1ee6b6b7d5c15c5f1ecb6ad98c60c4273a435" "DATA",
  .update "7fde8eebf388fcff667a89be60430cc6e198b1a78cb603a39cdd09885a3336e3" "DATA",
  .update "a7911cdfdc28e6a1867e359ba426081aacfa692fdeb3e978d2a68dd924fa8c3e" "DATA",
  .update "21548c66b44347d877e7b405a250121cda87cd494b122f0324f7df3b6cd75f86" "DATA",
  .update "bc2d9ddc9857e53598677dbea82a2583879e89ce6c032c77d825187bf3f1a943" "DATA",
  .update "58ec452ede72799baf21664edc953297b592ad9e95f2381710593ad7a32f31ef" "DATA",
  .update "79a881f99a636d0ad75f16f53668982b59f8bb96c3fbb449155fe7a08dba9cb1" "DATA"]
  "7e6643325042cfe0fc76626c043b97062af51c7e9fc56665f12b479034bce326"

-- Test Update With Empty Data Performs Delete.yaml
#guard checkSparse [
  .update "df3f619804a92fdb4057192dc43dd748ea778adc52bc498ce80524c014b81119" "DATA",
  .update "df3f619804a92fdb4057192dc43dd748ea778adc52bc498ce80524c014b81119" ""]
  "0000000000000000000000000000000000000000000000000000000000000000"

-- Test Update With Empty Data.yaml
#guard checkSparse [
  .update "df3f619804a92fdb4057192dc43dd748ea778adc52bc498ce80524c014b81119" ""]
  "0000000000000000000000000000000000000000000000000000000000000000"

-- Test Update With Repeated Inputs.yaml
#guard checkSparse [
  .update "df3f619804a92fdb4057192dc43dd748ea778adc52bc498ce80524c014b81119" "DATA",
  .update "df3f619804a92fdb4057192dc43dd748ea778adc52bc498ce80524c014b81119" "DATA"]
  "39f36a7cb4dfb1b46f03d044265df6a491dffc1034121bc1071a34ddce9bb14b"

end FuelMerkle.Tests
